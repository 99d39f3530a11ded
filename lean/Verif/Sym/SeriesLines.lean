import Verif.Sym.SeriesSim
import Verif.Sym.MulBase

/-!
# Running the lines of the generated base cases of the series functions
-/

namespace Mandelbrot.Sym

open Sig (Sg)
open Spec

section
variable {R : Type} [CommRing R]

/-- Stores every second value of `os`, counted from `k` on, below `n`. -/
def storeOdd (y : ℕ) (n : ℤ) : ℕ → List R → (ℕ → R) → (ℕ → R)
  | _, [], mem => mem
  | k, o :: os, mem =>
    if k % 2 = 1 then (if n ≤ (k / 2 : ℕ) then mem else storeOdd y n (k + 1) os (Function.update mem (y + k / 2) o))
    else storeOdd y n (k + 1) os mem

omit [CommRing R] in
theorem storeOdd_stop {y : ℕ} {n : ℤ} : ∀ (os : List R) {k : ℕ} (mem : ℕ → R), n ≤ (k / 2 : ℕ) → storeOdd y n k os mem = mem := by
  intro os
  induction os with
  | nil => intro k mem _; rfl
  | cons o os ih =>
    intro k mem h
    simp only [storeOdd]
    rw [if_pos h]
    split_ifs
    · rfl
    · exact ih _ (by omega)

omit [CommRing R] in
theorem storeOdd_twice (y : ℕ) (n : ℤ) : ∀ (l : List R) (k : ℕ) (mem : ℕ → R),
    storeOdd y n (2 * k) (l.flatMap fun v => [v, v]) mem = storeFrom y n k l mem := by
  intro l
  induction l with
  | nil => intro k mem; rfl
  | cons v l ih =>
    intro k mem
    simp only [List.flatMap_cons, List.cons_append, List.nil_append, storeOdd, storeFrom]
    rw [if_neg (by omega), if_pos (by omega), show (2 * k + 1) / 2 = k by omega, show 2 * k + 1 + 1 = 2 * (k + 1) by ring, ih]

theorem execS_rest (ρ : Interp R) (a : SArgs) (leading d : ℕ) : ∀ (l : List Item) (k : ℕ) (env : String → R) (mem : ℕ → R),
    inputs l = [] → k + outCount l ≤ 10 → (((k / 2 : ℕ) : ℤ) < a.ny ∨ outCount l = 0) →
    execS ρ a (toSLines leading d k l) env mem = storeOdd a.y a.ny k (outputs ρ l env) mem := by
  intro l
  induction l with
  | nil => intro k env mem _ _ _; rfl
  | cons i l ih =>
    intro k env mem hi hk hn
    cases i with
    | decl v => simp [inputs] at hi
    | «def» v e =>
      simp only [toSLines, execS, outputs]
      exact ih k _ mem hi hk hn
    | out e =>
      simp only [outCount] at hk hn
      have hn : ((k / 2 : ℕ) : ℤ) < a.ny := hn.resolve_right (by omega)
      have hn' : ¬a.ny ≤ ((k / 2 : ℕ) : ℤ) := by omega
      simp only [toSLines, outputs, storeOdd, if_neg hn']
      by_cases h1 : k % 2 = 1
      · rw [if_pos h1, if_pos h1]
        by_cases h2 : k / 2 + 1 < 5
        · rw [if_pos h2]
          simp only [List.cons_append, List.nil_append, execS]
          by_cases h3 : a.ny = ((k / 2 + 1 : ℕ) : ℤ)
          · rw [if_pos h3, storeOdd_stop _ _ (by omega)]
          · rw [if_neg h3]
            exact ih (k + 1) env _ hi (by omega) (Or.inl (by omega))
        · rw [if_neg h2]
          simp only [List.cons_append, List.nil_append, execS]
          exact ih (k + 1) env _ hi (by omega) (Or.inr (by omega))
      · rw [if_neg h1, if_neg h1, List.nil_append]
        exact ih (k + 1) env _ hi (by omega) (Or.inl (by omega))

/-- The names after the loads; the arguments and the leading terms have none. -/
def serEnv (leading : ℕ) (a : SArgs) (mem : ℕ → R) : ℕ → List String → (String → R) → (String → R)
  | _, [], env => env
  | d, v :: l, env => serEnv leading a mem (d + 1) l
    (if 4 + leading ≤ d then Function.update env v (if ((d - 4 : ℕ) : ℤ) < a.nx then mem (a.x + (d - 4)) else 0) else env)

theorem execS_loads (ρ : Interp R) (a : SArgs) (leading k : ℕ) : ∀ (ins : List String) (d : ℕ) (l : List Item) (env : String → R)
    (mem : ℕ → R), execS ρ a (toSLines leading d k (ins.map .decl ++ l)) env mem =
      execS ρ a (toSLines leading (d + ins.length) k l) (serEnv leading a mem d ins env) mem := by
  intro ins
  induction ins with
  | nil => intro d l env mem; rfl
  | cons v ins ih =>
    intro d l env mem
    simp only [List.map_cons, List.cons_append, toSLines, serEnv, List.length_cons]
    by_cases h : 4 + leading ≤ d
    · rw [if_pos h, if_pos h]
      simp only [List.cons_append, List.nil_append, execS]
      rw [ih, show d + 1 + ins.length = d + (ins.length + 1) by omega]
    · rw [if_neg h, if_neg h, List.nil_append, ih, show d + 1 + ins.length = d + (ins.length + 1) by omega]

theorem serEnv_not_mem (leading : ℕ) (a : SArgs) (mem : ℕ → R) : ∀ (ins : List String) (d : ℕ) (env : String → R) (v : String),
    v ∉ ins → serEnv leading a mem d ins env v = env v := by
  intro ins
  induction ins with
  | nil => intro d env v _; rfl
  | cons w ins ih =>
    intro d env v h
    rw [List.mem_cons, not_or] at h
    simp only [serEnv]
    rw [ih _ _ v h.2]
    by_cases hd : 4 + leading ≤ d
    · rw [if_pos hd, Function.update_of_ne h.1]
    · rw [if_neg hd]

theorem serEnv_get (leading : ℕ) (a : SArgs) (mem : ℕ → R) : ∀ (ins : List String) (d : ℕ) (env : String → R), ins.Nodup →
    ∀ (i : ℕ) (h : i < ins.length), 4 + leading ≤ d + i →
      serEnv leading a mem d ins env ins[i] = if ((d + i - 4 : ℕ) : ℤ) < a.nx then mem (a.x + (d + i - 4)) else 0 := by
  intro ins
  induction ins with
  | nil => intro d env _ i h; simp at h
  | cons w ins ih =>
    intro d env hn i h hd
    rw [List.nodup_cons] at hn
    simp only [serEnv]
    cases i with
    | zero =>
      simp only [List.getElem_cons_zero, Nat.add_zero] at hd ⊢
      rw [serEnv_not_mem _ _ _ _ _ _ _ hn.1, if_pos hd, Function.update_self]
    | succ i =>
      simp only [List.getElem_cons_succ]
      rw [ih (d + 1) _ hn.2 i (by simpa using h) (by omega), show d + 1 + i = d + (i + 1) by omega]

/-- Without inputs the code grows by temporaries and requested expressions. -/
theorem runActs_grows {C : Cfg} {ρ : Interp R} {U : Ex → Prop}
    (hU : ∀ e e', U e → U e' → e.sig C = e'.sig C → e.val ρ = e'.val ρ) :
    ∀ (l : List Act) {B B' : Blk}, Inv C ρ U B → (∀ x ∈ requested l, ∀ e ∈ x.subs, U e) → (∀ v, Act.input v ∉ l) →
      (∀ x ∈ requested l, ∀ v ∈ x.vars, v ∈ inputs B.code) → runActs C l B = .ok B' →
      ∃ more, B'.code = B.code ++ more ∧ inputs more = [] ∧ outCount more = (requested l).length := by
  intro l
  induction l with
  | nil => intro B B' _ _ _ _ hr; simp only [runActs, Except.ok.injEq] at hr; subst hr; exact ⟨[], by simp, rfl, rfl⟩
  | cons t l ih =>
    intro B B' hi hs hno hv hr
    cases t with
    | input v => exact absurd (List.mem_cons_self ..) (hno v)
    | use x =>
      simp only [runActs, Act.exec] at hr
      exact ih (B := B.use C x) ⟨hi.wf, hi.names, hi.inputs, hi.lets⟩ hs (fun v h => hno v (List.mem_cons_of_mem _ h)) hv hr
    | out x =>
      simp only [runActs, Act.exec] at hr
      simp only [requested] at hs hv ⊢
      cases hc : compute C x B with
      | error e => rw [hc] at hr; simp at hr
      | ok r =>
        obtain ⟨y, B1⟩ := r
        rw [hc] at hr
        simp only at hr
        have hst := compute_step hU x hi (hs x (by simp)) (hv x (by simp)) hc
        obtain ⟨m, hl⟩ := hst.ext
        have hl' : B1.code = B.code ++ m.map fun p => .def p.1 p.2 := hl
        have hi2 := (runActs_step hU [.out x] (B := B) (B' := { B1 with code := B1.code ++ [.out y] }) hi
          (by simpa [requested] using hs x (by simp)) ⟨hv x (by simp), trivial⟩ (by simp [runActs, Act.exec, hc])).1
        obtain ⟨more, h1, h2, h3⟩ := ih hi2 (fun z hz => hs z (by simp [hz])) (fun v h => hno v (List.mem_cons_of_mem _ h))
          (fun z hz v hzv => by
            have := hv z (by simp [hz]) v hzv
            simp only [hl', inputs_append]
            exact List.mem_append_left _ (List.mem_append_left _ this)) hr
        refine ⟨(m.map fun p => .def p.1 p.2) ++ .out y :: more, ?_, ?_, ?_⟩
        · rw [h1]; simp [hl']
        · rw [inputs_append, inputs_defs]; simpa [inputs] using h2
        · rw [outCount_append, outCount_defs]; simp [outCount, h3]

/-- What follows the declarations. -/
def serTail (ts : List Ex) : List Act := ts.map .use ++ ts.flatMap fun t => [.out t, .out t]

theorem serTail_spec (ts : List Ex) : requested (serTail ts) = ts.flatMap (fun t => [t, t]) ∧ (∀ v, Act.input v ∉ serTail ts) ∧
    ∀ D, (∀ t ∈ ts, ∀ v ∈ t.vars, v ∈ D) → Known D (serTail ts) := by
  have h1 : ∀ (l : List Ex) (m : List Act), requested (l.map Act.use ++ m) = requested m := by
    intro l m
    induction l with
    | nil => rfl
    | cons t l ih => exact ih
  have h2 : ∀ l : List Ex, requested (l.flatMap fun t => [Act.out t, Act.out t]) = l.flatMap fun t => [t, t] := by
    intro l
    induction l with
    | nil => rfl
    | cons t l ih => simp only [List.flatMap_cons, List.cons_append, List.nil_append, requested, ih]
  have h3 : ∀ (l : List Ex) (D : List String) (m : List Act), Known D m → Known D (l.map Act.use ++ m) := by
    intro l D m h
    induction l with
    | nil => exact h
    | cons t l ih => exact ih
  have h4 : ∀ (l : List Ex) (D : List String), (∀ t ∈ l, ∀ v ∈ t.vars, v ∈ D) → Known D (l.flatMap fun t => [Act.out t, Act.out t]) := by
    intro l D h
    induction l with
    | nil => trivial
    | cons t l ih =>
      simp only [List.flatMap_cons, List.cons_append, List.nil_append, Known]
      exact ⟨h t (by simp), h t (by simp), ih fun t' ht => h t' (by simp [ht])⟩
  refine ⟨by rw [serTail, h1, h2], fun v h => ?_, fun D h => h3 _ _ _ (h4 _ _ h)⟩
  simp [serTail] at h

/-- The generated lines store the values of the expressions at the loaded inputs. -/
theorem serLines_spec {C : Cfg} {ρ : Interp R} {ts : List Ex} {B : Blk} (a : SArgs) (leading : ℕ) (mem : ℕ → R)
    (env : String → R) (hρ : ρ.var = serEnv leading a mem 0 serNames env) (hv : ∀ t ∈ ts, ∀ v ∈ t.vars, v ∈ serNames)
    (hlen : ts.length = 5)
    (hc : ∀ x ∈ ts, ∀ x' ∈ ts, ∀ e ∈ x.subs, ∀ e' ∈ x'.subs, e.sig C = e'.sig C → e.val ρ = e'.val ρ) (hny : 1 ≤ a.ny)
    (hr : runActs C (serActs ts) Blk.empty = .ok B) :
    execS ρ a (toSLines leading 0 0 B.code) env mem = storeFrom a.y a.ny 0 (ts.map (Ex.val ρ)) mem := by
  have hU : ∀ e e', (∃ x ∈ ts, e ∈ x.subs) → (∃ x ∈ ts, e' ∈ x.subs) → e.sig C = e'.sig C → e.val ρ = e'.val ρ :=
    fun e e' ⟨x, hx, hxe⟩ ⟨x', hx', hxe'⟩ hs => hc x hx x' hx' e hxe e' hxe' hs
  have hI0 : Inv C ρ (fun e => ∃ x ∈ ts, e ∈ x.subs) Blk.empty :=
    ⟨trivial, fun v hv => by simp [Blk.empty, declared] at hv, fun env v hv => by simp [Blk.empty, Spec.inputs] at hv,
      fun s v hv => by simp [Blk.empty] at hv⟩
  have known_in : ∀ (l : List String) (D : List String), Known D (l.map Act.input) := by
    intro l
    induction l with
    | nil => intro D; trivial
    | cons v l ih => intro D; exact ih _
  have req_in : ∀ l : List String, requested (l.map Act.input) = [] := by
    intro l
    induction l with
    | nil => rfl
    | cons v l ih => exact ih
  have in_decls : ∀ l : List String, inputs (l.map Item.decl) = l := by
    intro l
    induction l with
    | nil => rfl
    | cons v l ih => simp [inputs, ih]
  obtain ⟨s1, s2, s3⟩ := serTail_spec ts
  have hsub : ∀ x ∈ requested (serTail ts), x ∈ ts := by
    rw [s1]; intro x hx; obtain ⟨t, ht, hx⟩ := List.mem_flatMap.mp hx; simp at hx; rw [hx]; exact ht
  rw [serActs, List.append_assoc] at hr
  change runActs C (serNames.map .input ++ serTail ts) Blk.empty = .ok B at hr
  rw [runActs_append] at hr
  cases h0 : runActs C (serNames.map .input) Blk.empty with
  | error e => rw [h0] at hr; simp [bind, Except.bind] at hr
  | ok B0 =>
    rw [h0, bok] at hr
    have hcode0 := runActs_inputs C serNames _ _ h0
    have hcode0' : B0.code = serNames.map .decl := by rw [hcode0]; simp [Blk.empty]
    have hI1 := (runActs_step hU (serNames.map .input) hI0 (by rw [req_in]; simp) (known_in serNames _) h0).1
    have hvs : ∀ t ∈ ts, ∀ v ∈ t.vars, v ∈ inputs B0.code := by rw [hcode0', in_decls]; exact hv
    obtain ⟨more, h1, h2, h3⟩ := runActs_grows hU (serTail ts) hI1 (fun x hx e he => ⟨x, hsub x hx, he⟩) s2
      (fun x hx => hvs x (hsub x hx)) hr
    obtain ⟨_, more', h1', h4⟩ := runActs_step hU _ hI1 (fun x hx e he => ⟨x, hsub x hx, he⟩) (s3 _ hvs) hr
    have hm : more' = more := List.append_cancel_left (h1'.symm.trans h1)
    subst hm
    have ho : outputs ρ more' ρ.var = (ts.map (Ex.val ρ)).flatMap fun v => [v, v] := by
      have := h4 env
      rw [s1, hcode0', after_decls serNames env (fun v hv => by rw [hρ, serEnv_not_mem _ _ _ _ _ _ _ hv])] at this
      rw [this, List.map_flatMap, List.flatMap_map]
      rfl
    have hcount : outCount more' = 10 := by
      rw [h3, s1]
      have : ∀ l : List Ex, (l.flatMap fun t => [t, t]).length = 2 * l.length := by
        intro l; induction l with
        | nil => rfl
        | cons t l ih => simp only [List.flatMap_cons, List.length_append, ih, List.length_cons, List.length_nil]; omega
      rw [this, hlen]
    rw [h1, hcode0', execS_loads, ← hρ, execS_rest _ _ _ _ _ _ _ _ h2 (by omega) (Or.inl (by simp; omega)), ho]
    exact storeOdd_twice _ _ _ 0 _

end

end Mandelbrot.Sym
