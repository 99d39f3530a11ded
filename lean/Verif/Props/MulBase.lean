import Verif.Sym.MulBase
import Verif.Props.Codelets
import Verif.Series.CodeletLemmas
import Verif.FFT.Mem
import Verif.Sym.Gradient

/-!
# The generated base cases: C43
-/

namespace Mandelbrot.Sym

open Sig (Sg)
open Spec
open FFT (mulBaseN mulBaseMem sqrBaseMem spanAt storeAt store_loop)

namespace Spec

/-- The term `j` of an operand of `n` cells at address `x`, zero beyond its end. -/
def cell {R : Type} [CommRing R] (mem : ℕ → R) (x : ℕ) (n : ℤ) (j : ℕ) : R := if (j : ℤ) < n then mem (x + j) else 0

/-- The memory after storing `v 0`, `v 1`, … at `z`: at most `n` and at most `nz` of them. -/
def stored {R : Type} (mem : ℕ → R) (z n : ℕ) (nz : ℤ) (v : ℕ → R) : ℕ → R :=
  fun p => if z ≤ p ∧ p < z + n ∧ (p : ℤ) < z + nz then v (p - z) else mem p

/-- The names of the inputs. -/
def mulInputs (n : ℕ) : List String := (List.range n).map (inName false) ++ (List.range n).map (inName true)

end Spec

theorem vars_closed (D : List String) : Closed fun e => ∀ v ∈ e.vars, v ∈ D where
  int := fun n v hv => by simp [Ex.vars] at hv
  neg := fun x s => Iff.rfl
  add := fun x y s hx hy v hv => by simp only [Ex.vars, List.mem_append] at hv; exact hv.elim (hx v) (hy v)
  sub := fun x y s hx hy v hv => by simp only [Ex.vars, List.mem_append] at hv; exact hv.elim (hx v) (hy v)
  mul := fun x y s hx hy v hv => by simp only [Ex.vars, List.mem_append] at hv; exact hv.elim (hx v) (hy v)
  withSig := fun e s h => by cases e <;> exact h

theorem execLines_withVar {R : Type} [CommRing R] (ρ : Interp R) (a : BaseArgs) (e : String → R) :
    ∀ (l : List Line) (env : String → R) (mem : ℕ → R), execLines (withVar ρ e) a l env mem = execLines ρ a l env mem := by
  intro l
  induction l with
  | nil => intro env mem; rfl
  | cons i l ih =>
    intro env mem
    cases i <;> simp only [execLines, ih] <;> rfl

theorem inputs_nodup (n : ℕ) : (mulInputs n).Nodup := by
  unfold mulInputs
  refine List.nodup_append.mpr ⟨?_, ?_, ?_⟩
  · exact List.nodup_range.map fun i j h => (inName_inj h).2
  · exact List.nodup_range.map fun i j h => (inName_inj h).2
  · intro a ha b hb e
    obtain ⟨i, _, rfl⟩ := List.mem_map.mp ha
    obtain ⟨j, _, rfl⟩ := List.mem_map.mp hb
    exact absurd (inName_inj e).1 (by decide)

/-- C43: the generated multiplication stores the terms of the truncated product, whatever the values and the lengths, with missing
terms read as zero, however the operands and the result overlap in memory, and changes nothing else.  This is for any number of
terms `n` and any commutative ring, if parts with equal signatures have equal values. -/
theorem C43_mul_base {C : Cfg} {R : Type} [CommRing R] {n : ℕ} {s : Bool → ℕ → Sg} {lines : List Line} {ts : List Ex} {st : CSt}
    (hr : mulBaseCode C n s = .ok (lines, ts, st)) (hc : ∀ ρ : Interp R, NoClash C ρ (st.met ++ ts.flatMap Ex.subs))
    (ρ : Interp R) (a : BaseArgs) (env : String → R) (mem : ℕ → R) :
    execLines ρ a lines env mem =
      stored mem a.z n a.nz fun i => ∑ j ∈ Finset.range (i + 1), cell mem a.x a.nx j * cell mem a.y a.ny (i - j) := by
  unfold mulBaseCode at hr
  cases hk : coefs (mulCoef C (fun j => .var (inName false j) (s false j)) fun j => .var (inName true j) (s true j)) 0 n ⟨true, [], []⟩ with
  | error e => rw [hk] at hr; simp at hr
  | ok u =>
    obtain ⟨ts', st'⟩ := u
    rw [hk] at hr
    simp only at hr
    cases hb : runActs C (baseActs ((List.range n).map (inName false) ++ (List.range n).map (inName true)) ts') Blk.empty with
    | error e => rw [hb] at hr; simp at hr
    | ok B =>
      rw [hb] at hr
      simp only [Except.ok.injEq, Prod.mk.injEq] at hr
      obtain ⟨rfl, rfl, rfl⟩ := hr
      change runActs C (baseActs (mulInputs n) ts') Blk.empty = .ok B at hb
      have hlen : (mulInputs n).length = n + n := by simp [mulInputs]
      have hx : ∀ j < n, inName false j ∈ mulInputs n := fun j hj =>
        List.mem_append_left _ (List.mem_map.mpr ⟨j, List.mem_range.mpr hj, rfl⟩)
      have hy : ∀ j < n, inName true j ∈ mulInputs n := fun j hj =>
        List.mem_append_right _ (List.mem_map.mpr ⟨j, List.mem_range.mpr hj, rfl⟩)
      have hv : ∀ t ∈ ts', ∀ v ∈ t.vars, v ∈ mulInputs n :=
        coefs_all (P := fun e => ∀ v ∈ e.vars, v ∈ mulInputs n) (n := n) (fun i hi st r h hr =>
          mulCoef_all (vars_closed _) (fun j hj v hv => by
            simp only [Ex.vars, List.mem_singleton] at hv; rw [hv]; exact hx j (by omega)) (fun j hj v hv => by
            simp only [Ex.vars, List.mem_singleton] at hv; rw [hv]; exact hy j (by omega)) h hr) n 0 (by omega)
          (fun p hp => by simp at hp) hk
      let σ := withVar ρ (loadEnv a mem n 0 (mulInputs n) env)
      obtain ⟨_, _, h3, h4⟩ := coefs_step σ (v := fun i => ∑ j ∈ Finset.range (i + 1), (Ex.var (inName false j) (s false j)).val σ *
          (Ex.var (inName true (i - j)) (s true (i - j))).val σ) (fun i st r h hr => mulCoef_step σ _ _ i h hr) n 0
        (fun p hp => by simp at hp) hk
      have hcl := hc σ
      have hcu : ∀ x ∈ ts', ∀ x' ∈ ts', ∀ e ∈ x.subs, ∀ e' ∈ x'.subs, e.sig C = e'.sig C → e.val σ = e'.val σ :=
        fun x hx x' hx' e he e' he' => hcl.1 e (List.mem_append_right _ (List.mem_flatMap.mpr ⟨x, hx, he⟩)) e'
          (List.mem_append_right _ (List.mem_flatMap.mpr ⟨x', hx', he'⟩))
      rw [← execLines_withVar ρ a (loadEnv a mem n 0 (mulInputs n) env), lines_spec a n mem env rfl hv h3 hcu hb]
      funext p
      rw [storeFrom_apply, List.length_map, h3, h4 (hcl.mono fun _ h => List.mem_append_left _ h)]
      simp only [Nat.add_zero, stored]
      by_cases hp : a.z ≤ p ∧ p < a.z + n ∧ (p : ℤ) < a.z + a.nz
      · rw [if_pos hp, if_pos hp]
        rw [List.getD_eq_getElem _ _ (by simp; omega)]
        simp only [List.getElem_map, List.getElem_range', Nat.zero_add, Nat.one_mul]
        refine Finset.sum_congr rfl fun j hj => ?_
        have hj' := Finset.mem_range.mp hj
        have g1 : (mulInputs n)[j]'(by omega) = inName false j := by
          simp only [mulInputs]; rw [List.getElem_append_left (by simp; omega)]; simp
        have g2 : (mulInputs n)[n + (p - a.z - j)]'(by omega) = inName true (p - a.z - j) := by
          simp only [mulInputs]; rw [List.getElem_append_right (by simp)]; simp
        have e1 := loadEnv_get a mem n (mulInputs n) 0 env (inputs_nodup n) j (by omega)
        have e2 := loadEnv_get a mem n (mulInputs n) 0 env (inputs_nodup n) (n + (p - a.z - j)) (by omega)
        rw [g1] at e1
        rw [g2] at e2
        show loadEnv a mem n 0 (mulInputs n) env (inName false j) * loadEnv a mem n 0 (mulInputs n) env (inName true (p - a.z - j)) = _
        rw [e1, e2]
        simp only [loadVal, Nat.zero_add]
        rw [if_neg (show ¬n ≤ j by omega), if_pos (show n ≤ n + (p - a.z - j) by omega),
          show n + (p - a.z - j) - n = p - a.z - j by omega]
        rfl
      · rw [if_neg hp, if_neg hp]

/-- C43: the same for the generated squaring. -/
theorem C43_sqr_base {C : Cfg} {R : Type} [CommRing R] {n : ℕ} {s : ℕ → Sg} {lines : List Line} {ts : List Ex} {st : CSt}
    (hr : sqrBaseCode C n s = .ok (lines, ts, st)) (hc : ∀ ρ : Interp R, NoClash C ρ (st.met ++ ts.flatMap Ex.subs))
    (ρ : Interp R) (a : BaseArgs) (env : String → R) (mem : ℕ → R) :
    execLines ρ a lines env mem =
      stored mem a.z n a.nz fun i => ∑ j ∈ Finset.range (i + 1), cell mem a.x a.nx j * cell mem a.x a.nx (i - j) := by
  unfold sqrBaseCode at hr
  cases hk : coefs (sqrCoef C fun j => .var (inName false j) (s j)) 0 n ⟨true, [], []⟩ with
  | error e => rw [hk] at hr; simp at hr
  | ok u =>
    obtain ⟨ts', st'⟩ := u
    rw [hk] at hr
    simp only at hr
    cases hb : runActs C (baseActs ((List.range n).map (inName false)) ts') Blk.empty with
    | error e => rw [hb] at hr; simp at hr
    | ok B =>
      rw [hb] at hr
      simp only [Except.ok.injEq, Prod.mk.injEq] at hr
      obtain ⟨rfl, rfl, rfl⟩ := hr
      set ins := (List.range n).map (inName false) with hins
      have hlen : ins.length = n := by simp [hins]
      have hnd : ins.Nodup := List.nodup_range.map fun i j h => (inName_inj h).2
      have hx : ∀ j < n, inName false j ∈ ins := fun j hj => List.mem_map.mpr ⟨j, List.mem_range.mpr hj, rfl⟩
      have hv : ∀ t ∈ ts', ∀ v ∈ t.vars, v ∈ ins :=
        coefs_all (P := fun e => ∀ v ∈ e.vars, v ∈ ins) (n := n) (fun i hi st r h hr =>
          sqrCoef_all (vars_closed _) (fun j hj v hv => by
            simp only [Ex.vars, List.mem_singleton] at hv; rw [hv]; exact hx j (by omega)) h hr) n 0 (by omega)
          (fun p hp => by simp at hp) hk
      let σ := withVar ρ (loadEnv a mem n 0 ins env)
      obtain ⟨_, _, h3, h4⟩ := coefs_step σ (v := fun i => ∑ j ∈ Finset.range (i + 1), (Ex.var (inName false j) (s j)).val σ *
          (Ex.var (inName false (i - j)) (s (i - j))).val σ) (fun i st r h hr => sqrCoef_step σ _ i h hr) n 0
        (fun p hp => by simp at hp) hk
      have hcl := hc σ
      have hcu : ∀ x ∈ ts', ∀ x' ∈ ts', ∀ e ∈ x.subs, ∀ e' ∈ x'.subs, e.sig C = e'.sig C → e.val σ = e'.val σ :=
        fun x hx x' hx' e he e' he' => hcl.1 e (List.mem_append_right _ (List.mem_flatMap.mpr ⟨x, hx, he⟩)) e'
          (List.mem_append_right _ (List.mem_flatMap.mpr ⟨x', hx', he'⟩))
      rw [← execLines_withVar ρ a (loadEnv a mem n 0 ins env), lines_spec a n mem env rfl hv h3 hcu hb]
      funext p
      rw [storeFrom_apply, List.length_map, h3, h4 (hcl.mono fun _ h => List.mem_append_left _ h)]
      simp only [Nat.add_zero, stored]
      by_cases hp : a.z ≤ p ∧ p < a.z + n ∧ (p : ℤ) < a.z + a.nz
      · rw [if_pos hp, if_pos hp]
        rw [List.getD_eq_getElem _ _ (by simp; omega)]
        simp only [List.getElem_map, List.getElem_range', Nat.zero_add, Nat.one_mul]
        refine Finset.sum_congr rfl fun j hj => ?_
        have hj' := Finset.mem_range.mp hj
        have key : ∀ j < n, loadEnv a mem n 0 ins env (inName false j) = cell mem a.x a.nx j := by
          intro j hj
          have g1 : ins[j]'(by omega) = inName false j := by simp [hins]
          have e1 := loadEnv_get a mem n ins 0 env hnd j (by omega)
          rw [g1] at e1
          rw [e1]
          simp only [loadVal, Nat.zero_add]
          rw [if_neg (show ¬n ≤ j by omega)]
          rfl
        show loadEnv a mem n 0 ins env (inName false j) * loadEnv a mem n 0 ins env (inName false (p - a.z - j)) = _
        rw [key j (by omega), key (p - a.z - j) (by omega)]
      · rw [if_neg hp, if_neg hp]

theorem used_base (ins : List String) (ts : List Ex) : used (baseActs ins ts) = ts ∧ names (baseActs ins ts) = ins ∧
    Used [] (baseActs ins ts) := by
  have h1 : ∀ l : List Ex, used (l.flatMap fun t => [Act.use t, Act.out t]) = l ∧ names (l.flatMap fun t => [Act.use t, Act.out t]) = [] ∧
      ∀ D, Used D (l.flatMap fun t => [Act.use t, Act.out t]) := by
    intro l
    induction l with
    | nil => exact ⟨rfl, rfl, fun _ => trivial⟩
    | cons t l ih =>
      simp only [List.flatMap_cons, List.cons_append, List.nil_append, used, names, Used]
      exact ⟨by rw [ih.1], ih.2.1, fun D => ⟨by simp, ih.2.2 _⟩⟩
  unfold baseActs
  induction ins with
  | nil => exact ⟨(h1 ts).1, (h1 ts).2.1, (h1 ts).2.2 _⟩
  | cons v ins ih => exact ⟨ih.1, by simpa [names] using ih.2.1, ih.2.2⟩

/-- C43: the generator of the multiplication finishes unless two different parts have the same signature. -/
theorem C43_mul_finishes {C : Cfg} (hC : C.Ok) (n : ℕ) {s : Bool → ℕ → Sg} (hs : ∀ b j i, s b j i < C.F i) :
    ∃ ts st, ((∀ x ∈ ts, ∀ x' ∈ ts, ∀ e ∈ x.subs, ∀ e' ∈ x'.subs, e.sig C = e'.sig C → e = e') →
      ∃ lines, mulBaseCode C n s = .ok (lines, ts, st)) ∧
      ∀ l ts' st', mulBaseCode C n s = .ok (l, ts', st') → ts' = ts ∧ st' = st := by
  have hg : ∀ b j, Good C true (.var (inName b j) (s b j)) := fun b j => ⟨trivial, fun _ => hs b j⟩
  obtain ⟨⟨ts, st⟩, hk⟩ := coefs_good (C := C) (coef := mulCoef C (fun j => .var (inName false j) (s false j)) fun j =>
      .var (inName true j) (s true j)) (b := true) (n := n)
    (fun i _ st h hb => mulCoef_good hC h (fun j _ => by rw [hb]; exact hg _ _) (fun j _ => by rw [hb]; exact hg _ _)) n 0
    (st := ⟨true, [], []⟩) (by omega) (fun p hp => by simp at hp) rfl
  refine ⟨ts, st, fun hd => ?_, fun l ts' st' h => ?_⟩
  · obtain ⟨u1, u2, u3⟩ := used_base (mulInputs n) ts
    obtain ⟨B, hb⟩ := C41_finishes (C := C) (acts := baseActs (mulInputs n) ts) u3 (by rw [u2]; exact inputs_nodup n) (by
      rw [u2]
      intro v hv m
      simp only [mulInputs, List.mem_append, List.mem_map] at hv
      rcases hv with ⟨j, _, rfl⟩ | ⟨j, _, rfl⟩ <;> exact inName_fresh _ _ _) (by rw [u1]; exact hd)
    refine ⟨.exit 0 :: toLines n 0 0 B.code, ?_⟩
    unfold mulBaseCode
    change runActs C (baseActs ((List.range n).map (inName false) ++ (List.range n).map (inName true)) ts) Blk.empty = .ok B at hb
    simp only [hk, hb]
  · unfold mulBaseCode at h
    simp only [hk] at h
    cases hb : runActs C (baseActs ((List.range n).map (inName false) ++ (List.range n).map (inName true)) ts) Blk.empty with
    | error e => rw [hb] at h; simp at h
    | ok B =>
      rw [hb] at h
      simp only [Except.ok.injEq, Prod.mk.injEq] at h
      exact ⟨h.2.1.symm, h.2.2.symm⟩

/-- C43: the generator of the squaring finishes unless two different parts have the same signature. -/
theorem C43_sqr_finishes {C : Cfg} (hC : C.Ok) (n : ℕ) {s : ℕ → Sg} (hs : ∀ j i, s j i < C.F i) :
    ∃ ts st, ((∀ x ∈ ts, ∀ x' ∈ ts, ∀ e ∈ x.subs, ∀ e' ∈ x'.subs, e.sig C = e'.sig C → e = e') →
      ∃ lines, sqrBaseCode C n s = .ok (lines, ts, st)) ∧
      ∀ l ts' st', sqrBaseCode C n s = .ok (l, ts', st') → ts' = ts ∧ st' = st := by
  have hg : ∀ j, Good C true (.var (inName false j) (s j)) := fun j => ⟨trivial, fun _ => hs j⟩
  obtain ⟨⟨ts, st⟩, hk⟩ := coefs_good (C := C) (coef := sqrCoef C fun j => .var (inName false j) (s j)) (b := true) (n := n)
    (fun i _ st h hb => sqrCoef_good hC h (fun j _ => by rw [hb]; exact hg _)) n 0
    (st := ⟨true, [], []⟩) (by omega) (fun p hp => by simp at hp) rfl
  refine ⟨ts, st, fun hd => ?_, fun l ts' st' h => ?_⟩
  · obtain ⟨u1, u2, u3⟩ := used_base ((List.range n).map (inName false)) ts
    obtain ⟨B, hb⟩ := C41_finishes (C := C) (acts := baseActs ((List.range n).map (inName false)) ts) u3
      (by rw [u2]; exact List.nodup_range.map fun i j h => (inName_inj h).2) (by
      rw [u2]
      intro v hv m
      obtain ⟨j, _, rfl⟩ := List.mem_map.mp hv
      exact inName_fresh _ _ _) (by rw [u1]; exact hd)
    refine ⟨.exit 0 :: toLines n 0 0 B.code, ?_⟩
    unfold sqrBaseCode
    simp only [hk, hb]
  · unfold sqrBaseCode at h
    simp only [hk] at h
    cases hb : runActs C (baseActs ((List.range n).map (inName false)) ts) Blk.empty with
    | error e => rw [hb] at h; simp at h
    | ok B =>
      rw [hb] at h
      simp only [Except.ok.injEq, Prod.mk.injEq] at h
      exact ⟨h.2.1.symm, h.2.2.symm⟩

/-! ## The eight terms of the code -/

/-- Different parts have different signatures, and those of small integers only if they are these integers. -/
def clean (C : Cfg) (l : List Ex) : Bool :=
  l.all fun e => (l.all fun e' => !decide (e.sig C 1 = e'.sig C 1) || decide (e = e')) &&
    match Sig.unsmall C.F (e.sig C) with
    | none => true
    | some n => decide (e = .int n)

theorem clean_noClash {C : Cfg} {l : List Ex} (h : clean C l = true) {R : Type} [CommRing R] (ρ : Interp R) : NoClash C ρ l := by
  unfold clean at h
  rw [List.all_eq_true] at h
  refine ⟨fun e he e' he' hs => ?_, fun e he n hn => ?_⟩
  · have h1 := h e he
    rw [Bool.and_eq_true, List.all_eq_true] at h1
    have h2 := h1.1 e' he'
    rw [hs] at h2
    simp only [decide_true, Bool.not_true, Bool.false_or, decide_eq_true_eq] at h2
    rw [h2]
  · have h1 := h e he
    rw [Bool.and_eq_true] at h1
    have h2 := h1.2
    rw [hn] at h2
    simp only [decide_eq_true_eq] at h2
    rw [h2]; rfl

/-- Signatures for the examples. -/
def exampleSig (b : Bool) (j : ℕ) : Sg := fun i => 1000003 * (j + 1) ^ 5 + (if b then 777777 else 0) + i

/-- The outcome of a generator is usable. -/
def usable : Res (List Line × List Ex × CSt) → Bool
  | .ok (_, ts, st) => clean exampleCfg (st.met ++ ts.flatMap Ex.subs)
  | .error _ => false

theorem usable_spec {r : Res (List Line × List Ex × CSt)} (h : usable r = true) :
    ∃ lines ts st, r = .ok (lines, ts, st) ∧ ∀ {R : Type} [CommRing R] (ρ : Interp R), NoClash exampleCfg ρ (st.met ++ ts.flatMap Ex.subs) := by
  cases r with
  | error e => simp [usable] at h
  | ok u => 
    obtain ⟨lines, ts, st⟩ := u
    have h' : clean exampleCfg (st.met ++ ts.flatMap Ex.subs) = true := by simpa only [usable] using h
    exact ⟨lines, ts, st, rfl, fun ρ => clean_noClash h' ρ⟩

def mulUsable : Bool := usable (mulBaseCode exampleCfg 8 exampleSig)
def sqrUsable : Bool := usable (sqrBaseCode exampleCfg 8 (exampleSig false))

theorem usable_mul : mulUsable = true := by decide +kernel
theorem usable_sqr : sqrUsable = true := by decide +kernel

/-- C43: the two functions with eight terms that the model of the multiplication calls are what is generated, if equal signatures
mean equal values. -/
theorem C43_fft_base {C : Cfg} {s : Bool → ℕ → Sg} {lines : List Line} {ts : List Ex} {st : CSt}
    (hr : mulBaseCode C mulBaseN s = .ok (lines, ts, st)) (hc : ∀ ρ : Interp ℝ, NoClash C ρ (st.met ++ ts.flatMap Ex.subs))
    {s' : ℕ → Sg} {lines' : List Line} {ts' : List Ex} {st' : CSt}
    (hr' : sqrBaseCode C mulBaseN s' = .ok (lines', ts', st')) (hc' : ∀ ρ : Interp ℝ, NoClash C ρ (st'.met ++ ts'.flatMap Ex.subs))
    (ρ : Interp ℝ) (env : String → ℝ) (mem : ℕ → ℝ) (zo nz xo nx yo ny : ℕ) :
    mulBaseMem mem zo nz (spanAt mem xo nx) (spanAt mem yo ny) = execLines ρ ⟨zo, nz, xo, nx, yo, ny⟩ lines env mem ∧
    ∀ yo ny, sqrBaseMem mem zo nz (spanAt mem xo nx) = execLines ρ ⟨zo, nz, xo, nx, yo, ny⟩ lines' env mem := by
  have hcell : ∀ xo nx j, (spanAt mem xo nx).getZ j = cell mem xo (nx : ℤ) j := by
    intro xo nx j
    by_cases h : j < nx
    · simp [Span.getZ, spanAt, cell, h]
    · simp [Span.getZ, spanAt, cell, h]
  refine ⟨?_, fun yo ny => ?_⟩
  · rw [C43_mul_base hr hc, mulBaseMem, store_loop]
    funext p
    simp only [storeAt, stored, hcell]
    by_cases hp : zo ≤ p ∧ p < zo + min nz mulBaseN
    · rw [if_pos hp, if_pos ⟨hp.1, by omega, by omega⟩]
    · rw [if_neg hp, if_neg (by omega)]
  · rw [C43_sqr_base hr' hc', sqrBaseMem, store_loop]
    funext p
    simp only [storeAt, stored, hcell]
    by_cases hp : zo ≤ p ∧ p < zo + min nz mulBaseN
    · rw [if_pos hp, if_pos (show zo ≤ p ∧ p < zo + mulBaseN ∧ (p : ℤ) < zo + nz from ⟨hp.1, by omega, by omega⟩), sqr_sum]
    · rw [if_neg hp, if_neg (by omega)]

/-- An example for the two theorems and the link: the eight terms of the code, with the result in place of an operand.
`(1 + 2 x) (3 + 4 x)` and `(1 + 2 x)^2` to three terms. -/
example : ∃ lines ts st lines' ts' st', mulBaseCode exampleCfg 8 exampleSig = .ok (lines, ts, st) ∧
    sqrBaseCode exampleCfg 8 (exampleSig false) = .ok (lines', ts', st') ∧
    ∀ (ρ : Interp ℤ) (env : String → ℤ),
      (List.range 5).map (execLines ρ ⟨0, 3, 0, 2, 2, 2⟩ lines env fun p => p + 1) = [3, 10, 8, 4, 5] ∧
      (List.range 5).map (execLines ρ ⟨0, 3, 0, 2, 9, 9⟩ lines' env fun p => p + 1) = [1, 4, 4, 4, 5] := by
  obtain ⟨l, ts, st, e, h⟩ := usable_spec usable_mul
  obtain ⟨l', ts', st', e', h'⟩ := usable_spec usable_sqr
  refine ⟨l, ts, st, l', ts', st', e, e', fun ρ env => ⟨?_, ?_⟩⟩
  · rw [C43_mul_base e (fun ρ => h ρ)]
    simp [List.range_succ, stored, cell, Finset.sum_range_succ]
  · rw [C43_sqr_base e' (fun ρ => h' ρ)]
    simp [List.range_succ, stored, cell, Finset.sum_range_succ]

end Mandelbrot.Sym

namespace Mandelbrot

open PowerSeries

variable {K : Type} [Field K] [CharZero K] [Ldexp K] [Ser.LawfulLdexp K] [DecidableEq K]

omit [CharZero K] [Ldexp K] [Ser.LawfulLdexp K] [DecidableEq K] in
theorem serialBase_counts {leading : ℕ} {set : Junk K → Ser K → Ser K → Res (Ser K)} {J : Junk K} {y x y' : Ser K}
    (h : serialBase leading set J y x = .ok y') :
    y'.known = min 5 x.known ∧ y'.nonzero = min 5 x.known ∧ ∀ i : ℕ, min 5 x.known ≤ i → y'.data i = y.data i := by
  unfold serialBase at h
  simp only at h
  obtain ⟨y1, h1, h⟩ := Ser.bind_eq_ok h
  unfold Ser.setCounts at h1
  by_cases ha : toU64 (min 5 x.known) ≤ toU64 (min y.limit (min 5 x.known))
  · rw [slowAssert_true ha, bok, pok, Except.ok.injEq] at h1
    subst h1
    by_cases h0 : min 5 x.known ≠ 0
    · rw [if_pos h0] at h
      obtain ⟨ys, _, h⟩ := Ser.bind_eq_ok h
      rw [pok, Except.ok.injEq] at h
      subst h
      refine ⟨rfl, rfl, fun i hi => ?_⟩
      simp only [Ser.loopSet]
      rw [if_neg (by omega)]
    · rw [if_neg h0, pok, Except.ok.injEq] at h
      subst h
      exact ⟨rfl, rfl, fun _ _ => rfl⟩
  · rw [slowAssert_false ha, berr] at h1
    simp at h1

/-- C43: the generated `inv_base` on a series with `n` known terms, of which the stored ones may be fewer, gives the first
`min 5 n` terms of the inverse and touches no other cell. -/
theorem C43_inv_base (J : Junk K) (y x : Ser K) (n : ℕ) (F : K⟦X⟧) (hx : x.Has n F) (hn : 0 < n) (hF : constantCoeff F ≠ 0)
    (hl : n ≤ y.limit) :
    ∃ y', invBase J y x = .ok y' ∧ y'.known = min 5 n ∧ y'.nonzero = min 5 n ∧ y'.limit = y.limit ∧
      (∀ i < min 5 n, y'.data i = coeff i F⁻¹) ∧ ∀ i, min 5 n ≤ i → y'.data i = y.data i := by
  obtain ⟨b, y', h0, h1, e, h2, h3, h4⟩ := invBase_exact J y x n F hx hn hF hl
  obtain ⟨c1, c2, c3⟩ := serialBase_counts e
  have hb : b = min 5 n := by have := h3.known; rw [c1, hx.known] at this; omega
  refine ⟨y', e, by rw [c1, hx.known]; norm_num, by rw [c2, hx.known]; norm_num, h2, fun i hi => ?_, fun i hi => c3 i (by rw [hx.known]; omega)⟩
  have := h3.agree i (by omega)
  rw [Ser.coeff_ps, if_pos (by rw [h4]; omega)] at this
  exact this

/-- C43: the generated `exp_base` likewise, for a series with constant term zero. -/
theorem C43_exp_base (J : Junk K) (y x : Ser K) (n : ℕ) (F : K⟦X⟧) (hx : x.Is n F) (hn : 0 < n) (hF : constantCoeff F = 0)
    (hl : n ≤ y.limit) :
    ∃ y', expBase J y x = .ok y' ∧ y'.known = min 5 n ∧ y'.nonzero = min 5 n ∧ y'.limit = y.limit ∧
      (∀ i < min 5 n, y'.data i = coeff i ((PowerSeries.exp K).subst F)) ∧ ∀ i, min 5 n ≤ i → y'.data i = y.data i := by
  obtain ⟨b, y', h0, h1, e, h2, h3, h4⟩ := expBase_exact J y x n F hx hn hF hl
  obtain ⟨c1, c2, c3⟩ := serialBase_counts e
  have hb : b = min 5 n := by have := h3.known; rw [c1, hx.known] at this; omega
  refine ⟨y', e, by rw [c1, hx.known]; norm_num, by rw [c2, hx.known]; norm_num, h2, fun i hi => ?_, fun i hi => c3 i (by rw [hx.known]; omega)⟩
  have := h3.agree i (by omega)
  rw [Ser.coeff_ps, if_pos (by rw [h4]; omega)] at this
  exact this

omit [CharZero K] [Ldexp K] [Ser.LawfulLdexp K] [DecidableEq K] in
theorem poly_has (x : Ser K) (h : x.WF) (n : ℕ) (hn : x.known = n) (h1 : 1 ≤ x.nonzero) : x.Has n x.ps :=
  ⟨Ser.Is.self h n hn, fun _ => h1⟩

/-- An example for the two theorems: three known terms of which two are stored, `1 + 2 x` and `2 x`. -/
example : (⟨9, 3, 2, fun i => if i = 0 then 1 else 2⟩ : Ser ℚ).Has 3 (⟨9, 3, 2, fun i => if i = 0 then 1 else 2⟩ : Ser ℚ).ps ∧
    constantCoeff (⟨9, 3, 2, fun i => if i = 0 then 1 else 2⟩ : Ser ℚ).ps ≠ 0 ∧
    constantCoeff (⟨9, 3, 2, fun i => if i = 0 then 0 else 2⟩ : Ser ℚ).ps = 0 := by
  refine ⟨poly_has _ ⟨by norm_num, by norm_num, by norm_num⟩ 3 rfl (by norm_num), ?_, ?_⟩
  · rw [← coeff_zero_eq_constantCoeff_apply, Ser.coeff_ps]; norm_num
  · rw [← coeff_zero_eq_constantCoeff_apply, Ser.coeff_ps]; norm_num

end Mandelbrot
