import Verif.Device.FFT
import Verif.Props.Device

/-!
# What the kernels of the transforms do on a device
-/

namespace Mandelbrot.Device

open FFT Props Props.Spec Mandelbrot.Spec

/-! ## Iterations -/

section

variable {A V : Type} [DecidableEq A]

theorem accesses_append (i : ℕ) (b b' : List (Access A V)) (m : Mem A V) :
    accesses i (b ++ b') m = accesses i b' (accesses i b m) := List.foldl_append ..

/-- A cell that is not stored keeps its value. -/
theorem accesses_frame {i : ℕ} {body : List (Access A V)} {a : A} (h : ∀ a' v, Access.store a' v ∈ body → a' ≠ a) (m : Mem A V) :
    (accesses i body m).cell a = m.cell a := by
  induction body generalizing m with
  | nil => rfl
  | cons c body ih =>
    have e : accesses i (c :: body) m = accesses i body (c.step i m) := rfl
    rw [e, ih fun a' v hm => h a' v (List.mem_cons_of_mem _ hm)]
    cases c with
    | load r a' => rfl
    | store a' v => exact Function.update_of_ne (h a' v List.mem_cons_self).symm ..

/-- The same for a loop. -/
theorem fold_frame {n : ℕ} {body : ℕ → List (Access A V)} {a : A} (h : ∀ i < n, ∀ a' v, Access.store a' v ∈ body i → a' ≠ a)
    (m : Mem A V) : ((List.range n).foldl (fun m i => accesses i (body i) m) m).cell a = m.cell a := by
  induction n with
  | zero => rfl
  | succ n ih =>
    rw [List.range_succ, List.foldl_append, List.foldl_cons, List.foldl_nil, accesses_frame (h n (by omega)), ih fun i hi => h i (by omega)]

/-- Conditional loads. -/
theorem accesses_loads (j b R : ℕ) (c : ℕ → Prop) [DecidablePred c] (addr : ℕ → A) (m : Mem A V) :
    let m' := accesses j ((List.range R).flatMap fun i => if c i then [Access.load (b + i) (addr i)] else []) m
    m'.cell = m.cell ∧ (∀ i < R, c i → m'.regs j (b + i) = m.cell (addr i)) ∧ ∀ k, (∀ i < R, k ≠ b + i) → m'.regs j k = m.regs j k := by
  induction R with
  | zero => exact ⟨rfl, fun i hi => by omega, fun _ _ => rfl⟩
  | succ R ih =>
    obtain ⟨h1, h2, h3⟩ := ih
    simp only at h1 h2 h3 ⊢
    rw [List.range_succ, List.flatMap_append, accesses_append, List.flatMap_singleton]
    by_cases hc : c R
    · rw [if_pos hc]
      refine ⟨h1, fun i hi hci => ?_, fun k hk => ?_⟩
      · show (Function.update _ _ (Function.update _ _ _) : ℕ → ℕ → _) _ _ = _
        rw [Function.update_self]
        by_cases hR : i = R
        · subst hR; rw [Function.update_self, h1]
        · rw [Function.update_of_ne (by omega)]
          exact h2 i (by omega) hci
      · show (Function.update _ _ (Function.update _ _ _) : ℕ → ℕ → _) _ _ = _
        rw [Function.update_self, Function.update_of_ne (hk R (by omega))]
        exact h3 k fun i hi => hk i (by omega)
    · rw [if_neg hc]
      refine ⟨h1, fun i hi hci => ?_, fun k hk => h3 k fun i hi => hk i (by omega)⟩
      have : i ≠ R := by rintro rfl; exact hc hci
      exact h2 i (by omega) hci

omit [DecidableEq A] in
theorem map_eq_loads (R : ℕ) (addr : ℕ → A) :
    ((List.range R).map fun i => (Access.load i (addr i) : Access A V)) =
      (List.range R).flatMap fun i => if True then [Access.load (0 + i) (addr i)] else [] := by
  rw [List.map_eq_flatMap]
  simp only [if_true, Nat.zero_add]

end

theorem scatter_congr {α : Type} (a dj : ℕ) {v v' : ℕ → α} {R : ℕ} (h : ∀ i < R, v i = v' i) (y : ℕ → α) :
    scatter a dj v R y = scatter a dj v' R y := by
  induction R with
  | zero => rfl
  | succ R ih => rw [scatter, scatter, ih fun i hi => h i (by omega), h R (by omega)]

theorem scatterX_congr (add : Bool) (xn a dj : ℕ) {v v' : ℕ → ℝ} {R : ℕ} (h : ∀ i < R, v i = v' i) (x : ℕ → ℝ) :
    scatterX add xn a dj v R x = scatterX add xn a dj v' R x := by
  induction R with
  | zero => rfl
  | succ R ih => simp only [scatterX, ih fun i hi => h i (by omega), h R (by omega)]

/-- The buffer from cell `yo` on. -/
def buf (yo : ℕ) (m : FMem) : ℕ → ℂ := fun i => m.cell (.inr (yo + i))

/-- The real numbers. -/
def reals (m : FMem) : ℕ → ℝ := fun k => (m.cell (.inl k)).re

theorem accesses_stores (j yo a dj R : ℕ) (v : ℕ → (ℕ → ℂ) → ℂ) (m : FMem) :
    let m' := accesses j ((List.range R).map fun i => Access.store (.inr (yo + (a + i * dj))) (v i)) m
    m'.regs = m.regs ∧ buf yo m' = scatter a dj (fun i => v i (m.regs j)) R (buf yo m) := by
  induction R with
  | zero => exact ⟨rfl, rfl⟩
  | succ R ih =>
    obtain ⟨h1, h2⟩ := ih
    simp only at h1 h2 ⊢
    rw [List.range_succ, List.map_append, accesses_append]
    refine ⟨h1, ?_⟩
    rw [scatter, ← h2]
    funext k
    show Function.update _ _ _ _ = _
    by_cases hk : k = a + R * dj
    · subst hk; rw [Function.update_self, Function.update_self, h1]
    · rw [Function.update_of_ne hk, Function.update_of_ne]
      · rfl
      · intro e; exact hk (by simpa using e)

theorem firstBody_run (r cnt mm : ℕ) (hr : r = 1 ∨ r = 2 ∨ r = 3) (tw : ℤ → ℂ) (yo xo nx j : ℕ) (m : FMem) :
    let m' := accesses j (firstBody r cnt mm tw yo xo nx j) m
    (∀ k, m'.cell (.inl k) = m.cell (.inl k)) ∧
    buf yo m' = scatter j cnt (firstLevels r j cnt mm tw fun i => (spanAt (reals m) xo nx).getZ (j + i * cnt)) (2 ^ r / 2) (buf yo m) := by
  refine ⟨fun k => accesses_frame (fun a' v h e => ?_) m, ?_⟩
  · subst e
    simp [firstBody] at h
  · simp only [firstBody]
    rw [accesses_append]
    have hl := accesses_loads (V := ℂ) j 0 (2 ^ r) (fun i => j + i * cnt < nx) (fun i => (.inl (xo + (j + i * cnt)) : Addr)) m
    simp only [Nat.zero_add] at hl
    obtain ⟨h1, h2, -⟩ := hl
    refine (accesses_stores j yo j cnt _ _ _).2.trans ?_
    have hb : ∀ m m' : FMem, m.cell = m'.cell → buf yo m = buf yo m' := fun m m' e => by unfold buf; rw [e]
    rw [hb _ m h1]
    refine scatter_congr _ _ (fun i _ => ?_) _
    refine firstLevels_congr hr _ _ _ _ (fun i hi => ?_) i
    simp only [Span.getZ, spanAt, reals]
    show (if j + i * cnt < nx then _ else (0 : ℝ)) = if j + i * cnt < nx then _ else 0
    by_cases h : j + i * cnt < nx
    · rw [if_pos h, if_pos h, h2 i hi h]
    · rw [if_neg h, if_neg h]

theorem levelBody_run (r s : ℕ) (f : ℕ → (ℕ → ℂ) → ℕ → ℂ) (hf : ∀ j v v', (∀ i < 2 ^ r, v i = v' i) → ∀ i < 2 ^ r, f j v i = f j v' i)
    (yo j : ℕ) (m : FMem) :
    buf yo (accesses j (levelBody r s f yo j) m) = (fun j y =>
      let m := 1 <<< s
      let j1 := j &&& (m - 1)
      let j0 := (j - j1) <<< r
      let ys := fun i => y (j0 + j1 + i * m)
      scatter (j0 + j1) m (f j1 ys) (2 ^ r) y) j (buf yo m) := by
  simp only [levelBody]
  rw [accesses_append, map_eq_loads]
  obtain ⟨h1, h2, -⟩ := accesses_loads (V := ℂ) j 0 (2 ^ r) (fun _ => True)
    (fun i => (.inr (yo + ((j - (j &&& (1 <<< s - 1))) <<< r + (j &&& (1 <<< s - 1)) + i * 1 <<< s)) : Addr)) m
  refine (accesses_stores j yo _ _ _ _ _).2.trans ?_
  have hb : ∀ m m' : FMem, m.cell = m'.cell → buf yo m = buf yo m' := fun m m' e => by unfold buf; rw [e]
  rw [hb _ m h1]
  refine scatter_congr _ _ (fun i hi => hf _ _ _ (fun i hi => ?_) i hi) _
  have := h2 i hi trivial
  rw [Nat.zero_add] at this
  exact this

/-- What `lastBody` does for output `i`. -/
noncomputable def lastStore (add : Bool) (r cnt m : ℕ) (tw : ℤ → ℂ) (xo xn j i : ℕ) : List (Access Addr ℂ) :=
  let k := j + i * cnt
  let v := fun reg => transposeR (2 ^ r / 2) (firstLevels r j cnt m tw) reg i
  if k < xn then
    if add then [.load (2 ^ r + i) (.inl (xo + k)), .store (.inl (xo + k)) fun reg => (((reg (2 ^ r + i)).re + v reg : ℝ) : ℂ)]
    else [.store (.inl (xo + k)) fun reg => ((v reg : ℝ) : ℂ)]
  else []

noncomputable def lastStores (add : Bool) (r cnt m : ℕ) (tw : ℤ → ℂ) (xo xn j R : ℕ) : List (Access Addr ℂ) :=
  (List.range R).flatMap (lastStore add r cnt m tw xo xn j)

theorem lastBody_run (add : Bool) (r cnt mm : ℕ) (tw : ℤ → ℂ) (yo xo xn j : ℕ) (m : FMem) :
    let m' := accesses j (lastBody add r cnt mm tw yo xo xn j) m
    (∀ k, m'.cell (.inr k) = m.cell (.inr k)) ∧
    (fun i => reals m' (xo + i)) = scatterX add xn j cnt (transposeR (2 ^ r / 2) (firstLevels r j cnt mm tw) fun i => buf yo m (j + i * cnt))
      (2 ^ r) fun i => reals m (xo + i) := by
  refine ⟨fun k => accesses_frame (fun a' v h e => ?_) m, ?_⟩
  · subst e
    simp only [lastBody, List.mem_append, List.mem_map, List.mem_flatMap] at h
    rcases h with ⟨i, -, h⟩ | ⟨i, -, h⟩
    · cases h
    · split_ifs at h <;> simp at h
  · have e : lastBody add r cnt mm tw yo xo xn j = ((List.range (2 ^ r / 2)).map fun i => .load i (.inr (yo + (j + i * cnt)))) ++
        lastStores add r cnt mm tw xo xn j (2 ^ r) := rfl
    rw [e, accesses_append, map_eq_loads]
    obtain ⟨h1, h2, -⟩ := accesses_loads (V := ℂ) j 0 (2 ^ r / 2) (fun _ => True) (fun i => (.inr (yo + (j + i * cnt)) : Addr)) m
    generalize accesses j ((List.range (2 ^ r / 2)).flatMap fun i => if True then [Access.load (0 + i) (.inr (yo + (j + i * cnt)) : Addr)]
      else []) m = m1 at h1 h2 ⊢
    have hreals : reals m1 = reals m := by unfold reals; rw [h1]
    rw [← hreals]
    have hv : ∀ reg : ℕ → ℂ, (∀ k < 2 ^ r, reg k = m1.regs j k) → ∀ i, transposeR (2 ^ r / 2) (firstLevels r j cnt mm tw) reg i =
        transposeR (2 ^ r / 2) (firstLevels r j cnt mm tw) (fun i => buf yo m (j + i * cnt)) i := by
      intro reg hreg i
      unfold transposeR
      refine Finset.sum_congr rfl fun k hk => ?_
      rw [Finset.mem_range] at hk
      have := h2 k hk trivial
      rw [Nat.zero_add] at this
      rw [hreg k (by omega), this]
      rfl
    have key : ∀ R : ℕ, (∀ k < 2 ^ r, (accesses j (lastStores add r cnt mm tw xo xn j R) m1).regs j k = m1.regs j k) ∧
        (fun i => reals (accesses j (lastStores add r cnt mm tw xo xn j R) m1) (xo + i)) =
          scatterX add xn j cnt (transposeR (2 ^ r / 2) (firstLevels r j cnt mm tw) fun i => buf yo m (j + i * cnt)) R
            fun i => reals m1 (xo + i) := by
      intro R
      induction R with
      | zero => exact ⟨fun _ _ => rfl, rfl⟩
      | succ R ih =>
        obtain ⟨i1, i2⟩ := ih
        have e : lastStores add r cnt mm tw xo xn j (R + 1) = lastStores add r cnt mm tw xo xn j R ++
            lastStore add r cnt mm tw xo xn j R := by
          rw [lastStores, List.range_succ, List.flatMap_append, List.flatMap_singleton, lastStores]
        rw [e, accesses_append]
        simp only [scatterX]
        rw [← i2]
        generalize accesses j (lastStores add r cnt mm tw xo xn j R) m1 = m2 at i1 i2 ⊢
        simp only [lastStore]
        by_cases hk : j + R * cnt < xn
        · rw [if_pos hk, if_pos hk]
          cases add with
          | false =>
            refine ⟨i1, ?_⟩
            funext k
            simp only [Bool.false_eq_true, if_false]
            show ((Function.update _ _ _ : Addr → ℂ) _).re = _
            by_cases hkk : k = j + R * cnt
            · subst hkk
              rw [Function.update_self, Function.update_self, Complex.ofReal_re, hv _ i1]
            · rw [Function.update_of_ne hkk, Function.update_of_ne (by simpa using hkk)]
              rfl
          | true =>
            constructor
            · intro k hk
              show (Function.update _ _ (Function.update _ _ _) : ℕ → ℕ → _) _ _ = _
              rw [Function.update_self, Function.update_of_ne (by omega)]
              exact i1 k hk
            · funext k
              simp only [if_true]
              show ((Function.update _ _ _ : Addr → ℂ) _).re = _
              by_cases hkk : k = j + R * cnt
              · subst hkk
                rw [Function.update_self, Function.update_self, Complex.ofReal_re]
                rw [hv]
                · show ((Function.update _ _ (Function.update _ _ _) : ℕ → ℕ → ℂ) _ _).re + _ = _
                  rw [Function.update_self, Function.update_self]
                  rfl
                · intro k hk
                  show (Function.update _ _ (Function.update _ _ _) : ℕ → ℕ → _) _ _ = _
                  rw [Function.update_self, Function.update_of_ne (by omega)]
                  exact i1 k hk
              · rw [Function.update_of_ne hkk, Function.update_of_ne (by simpa using hkk)]
                rfl
        · rw [if_neg hk, if_neg hk]
          exact ⟨i1, rfl⟩
    exact (key (2 ^ r)).2

/-! ## Freedom of races -/

/-- Every cell that is stored belongs to one iteration, and is loaded by that iteration only. -/
theorem noRaces_own {A V : Type} [DecidableEq A] {n : ℕ} {body : ℕ → List (Access A V)} (ro : A → Prop) (own : A → ℕ)
    (hs : ∀ i < n, ∀ a v, Access.store a v ∈ body i → ¬ro a ∧ own a = i)
    (hl : ∀ i < n, ∀ r a, Access.load r a ∈ body i → ro a ∨ own a = i) : NoRaces n body := by
  intro i hi j hj hij a v hm c hc e
  obtain ⟨h1, h2⟩ := hs i hi a v hm
  cases c with
  | load r a' =>
    simp only [addr] at e
    subst e
    rcases hl j hj r a' hc with h | h
    · exact h1 h
    · exact hij (h2.symm.trans h)
  | store a' v' =>
    simp only [addr] at e
    subst e
    exact hij (h2.symm.trans (hs j hj a' v' hc).2)

theorem firstBody_store {r cnt mm : ℕ} {tw : ℤ → ℂ} {yo xo nx j : ℕ} {a : Addr} {v : (ℕ → ℂ) → ℂ}
    (h : Access.store a v ∈ firstBody r cnt mm tw yo xo nx j) : ∃ i, a = .inr (yo + (j + i * cnt)) := by
  simp only [firstBody, List.mem_append, List.mem_flatMap, List.mem_map] at h
  rcases h with ⟨i, -, h⟩ | ⟨i, -, h⟩
  · split_ifs at h <;> simp at h
  · cases h; exact ⟨i, rfl⟩

theorem firstBody_noRaces (r cnt mm : ℕ) (tw : ℤ → ℂ) (yo xo nx : ℕ) : NoRaces cnt (firstBody r cnt mm tw yo xo nx) := by
  refine noRaces_own (fun a => ∃ k, a = .inl k) (fun a => match a with | .inl _ => 0 | .inr k => (k - yo) % cnt) ?_ ?_
  · intro j hj a v h
    obtain ⟨i, rfl⟩ := firstBody_store h
    refine ⟨by simp, ?_⟩
    simp only [Nat.add_sub_cancel_left, Nat.add_mul_mod_self_right, Nat.mod_eq_of_lt hj]
  · intro j hj k a h
    left
    simp only [firstBody, List.mem_append, List.mem_flatMap, List.mem_map] at h
    rcases h with ⟨i, -, h⟩ | ⟨i, -, h⟩
    · split_ifs at h
      · rw [List.mem_singleton] at h; cases h; exact ⟨_, rfl⟩
      · simp at h
    · cases h

theorem lastBody_store {add : Bool} {r cnt mm : ℕ} {tw : ℤ → ℂ} {yo xo xn j : ℕ} {a : Addr} {v : (ℕ → ℂ) → ℂ}
    (h : Access.store a v ∈ lastBody add r cnt mm tw yo xo xn j) : ∃ i, j + i * cnt < xn ∧ a = .inl (xo + (j + i * cnt)) := by
  simp only [lastBody, List.mem_append, List.mem_flatMap, List.mem_map] at h
  rcases h with ⟨i, -, h⟩ | ⟨i, -, h⟩
  · cases h
  · split_ifs at h with h1 h2
    · simp only [List.mem_cons, reduceCtorEq, List.not_mem_nil, or_false, false_or] at h
      cases h; exact ⟨i, h1, rfl⟩
    · rw [List.mem_singleton] at h; cases h; exact ⟨i, h1, rfl⟩
    · simp at h

theorem lastBody_noRaces (add : Bool) (r cnt mm : ℕ) (tw : ℤ → ℂ) (yo xo xn : ℕ) : NoRaces cnt (lastBody add r cnt mm tw yo xo xn) := by
  refine noRaces_own (fun a => ∃ k, a = .inr k) (fun a => match a with | .inr _ => 0 | .inl k => (k - xo) % cnt) ?_ ?_
  · intro j hj a v h
    obtain ⟨i, -, rfl⟩ := lastBody_store h
    refine ⟨by simp, ?_⟩
    simp only [Nat.add_sub_cancel_left, Nat.add_mul_mod_self_right, Nat.mod_eq_of_lt hj]
  · intro j hj k a h
    simp only [lastBody, List.mem_append, List.mem_flatMap, List.mem_map] at h
    rcases h with ⟨i, -, h⟩ | ⟨i, -, h⟩
    · cases h; exact .inl ⟨_, rfl⟩
    · split_ifs at h with h1 h2
      · simp only [List.mem_cons, reduceCtorEq, List.not_mem_nil, or_false] at h
        cases h
        right
        simp only [Nat.add_sub_cancel_left, Nat.add_mul_mod_self_right, Nat.mod_eq_of_lt hj]
      · simp at h
      · simp at h

theorem level_own (r s j : ℕ) {i : ℕ} (hi : i < 2 ^ r) :
    ((j - (j &&& (1 <<< s - 1))) <<< r + (j &&& (1 <<< s - 1)) + i * 1 <<< s) / 2 ^ s / 2 ^ r * 2 ^ s +
      ((j - (j &&& (1 <<< s - 1))) <<< r + (j &&& (1 <<< s - 1)) + i * 1 <<< s) % 2 ^ s = j := by
  have hm : 0 < 2 ^ s := by positivity
  have hR : 0 < 2 ^ r := by positivity
  simp only [Nat.one_shiftLeft, and_mask, level_base]
  have e : j / 2 ^ s * 2 ^ r * 2 ^ s + j % 2 ^ s + i * 2 ^ s = 2 ^ s * (2 ^ r * (j / 2 ^ s) + i) + j % 2 ^ s := by ring
  have hJ := Nat.mod_lt j hm
  rw [e, Nat.mul_add_div hm, Nat.div_eq_of_lt hJ, add_zero, Nat.mul_add_mod, Nat.mod_mod, Nat.mul_add_div hR, Nat.div_eq_of_lt hi, add_zero]
  have := Nat.div_add_mod j (2 ^ s)
  rw [Nat.mul_comm] at this
  exact this

theorem levelBody_noRaces (n r s : ℕ) (f : ℕ → (ℕ → ℂ) → ℕ → ℂ) (yo : ℕ) : NoRaces n (levelBody r s f yo) := by
  refine noRaces_own (fun a => ∃ k, a = .inl k) (fun a => match a with
    | .inl _ => 0
    | .inr k => (k - yo) / 2 ^ s / 2 ^ r * 2 ^ s + (k - yo) % 2 ^ s) ?_ ?_
  · intro j hj a v h
    simp only [levelBody, List.mem_append, List.mem_map, List.mem_range] at h
    rcases h with ⟨i, -, h⟩ | ⟨i, hi, h⟩
    · cases h
    · cases h
      refine ⟨by simp, ?_⟩
      simp only [Nat.add_sub_cancel_left]
      exact level_own r s j hi
  · intro j hj k a h
    right
    simp only [levelBody, List.mem_append, List.mem_map, List.mem_range] at h
    rcases h with ⟨i, hi, h⟩ | ⟨i, -, h⟩
    · cases h
      simp only [Nat.add_sub_cancel_left]
      exact level_own r s j hi
    · cases h

theorem mulCwiseBody_noRaces (n : ℕ) (a : ℝ) : NoRaces n (mulCwiseBody 0 n a) := by
  refine noRaces_own (fun a => ∃ k, a = .inr (n + k)) (fun a => match a with | .inl _ => 0 | .inr k => k) ?_ ?_
  · intro j hj a v h
    simp only [mulCwiseBody, Nat.zero_add, List.mem_cons, reduceCtorEq, List.not_mem_nil, or_false, false_or] at h
    cases h
    refine ⟨?_, rfl⟩
    rintro ⟨k, e⟩
    have := Sum.inr.inj e
    omega
  · intro j hj k a h
    simp only [mulCwiseBody, Nat.zero_add, List.mem_cons, reduceCtorEq, List.not_mem_nil, or_false] at h
    rcases h with h | h
    · cases h; exact .inr rfl
    · cases h; exact .inl ⟨_, rfl⟩

/-! ## Kernels -/

/-- A loop on the memory, seen through a projection. -/
theorem fold_proj {Y : Type} (P : FMem → Y) (I : FMem → Prop) {n : ℕ} (step : ℕ → FMem → FMem) (f : ℕ → Y → Y)
    (h : ∀ i < n, ∀ m, I m → I (step i m) ∧ P (step i m) = f i (P m)) (m : FMem) (hm : I m) :
    I ((List.range n).foldl (fun m i => step i m) m) ∧ P ((List.range n).foldl (fun m i => step i m) m) = forLoop n f (P m) := by
  induction n with
  | zero => exact ⟨hm, rfl⟩
  | succ n ih =>
    obtain ⟨i1, i2⟩ := ih fun i hi => h i (by omega)
    obtain ⟨h1, h2⟩ := h n (by omega) _ i1
    rw [List.range_succ, List.foldl_append, List.foldl_cons, List.foldl_nil, forLoop_succ, ← i2]
    exact ⟨h1, h2⟩

theorem first_fold (r cnt mm : ℕ) (hr : r = 1 ∨ r = 2 ∨ r = 3) (tw : ℤ → ℂ) (yo xo nx : ℕ) (m : FMem) :
    let m' := (List.range cnt).foldl (fun m i => accesses i (firstBody r cnt mm tw yo xo nx i) m) m
    (∀ k, m'.cell (.inl k) = m.cell (.inl k)) ∧ (∀ k < yo, m'.cell (.inr k) = m.cell (.inr k)) ∧
      buf yo m' = srfftFirst r cnt mm tw (buf yo m) (spanAt (reals m) xo nx) := by
  refine ⟨fun k => fold_frame (fun i _ a v h e => ?_) m, fun k hk => fold_frame (fun i _ a v h e => ?_) m, ?_⟩
  · obtain ⟨i, rfl⟩ := firstBody_store h; cases e
  · obtain ⟨i, rfl⟩ := firstBody_store h
    have := Sum.inr.inj e
    omega
  · refine (fold_proj (buf yo) (fun m' => ∀ k, m'.cell (.inl k) = m.cell (.inl k)) (fun i m => accesses i (firstBody r cnt mm tw yo xo nx i) m)
      (fun j y => scatter j cnt (firstLevels r j cnt mm tw fun i => (spanAt (reals m) xo nx).getZ (j + i * cnt)) (2 ^ r / 2) y)
      (fun i _ m' hm' => ?_) m fun _ => rfl).2
    obtain ⟨h1, h2⟩ := firstBody_run r cnt mm hr tw yo xo nx i m'
    refine ⟨fun k => (h1 k).trans (hm' k), ?_⟩
    have e : reals m' = reals m := by funext k; simp only [reals, hm']
    rw [h2, e]

theorem level_fold (r cnt s : ℕ) (f : ℕ → (ℕ → ℂ) → ℕ → ℂ) (hf : ∀ j v v', (∀ i < 2 ^ r, v i = v' i) → ∀ i < 2 ^ r, f j v i = f j v' i)
    (yo : ℕ) (m : FMem) :
    let m' := (List.range cnt).foldl (fun m i => accesses i (levelBody r s f yo i) m) m
    (∀ k, m'.cell (.inl k) = m.cell (.inl k)) ∧ (∀ k < yo, m'.cell (.inr k) = m.cell (.inr k)) ∧
      buf yo m' = levelLoop r cnt s f (buf yo m) := by
  have hst : ∀ {j a v}, Access.store a v ∈ levelBody r s f yo j → ∃ k, a = .inr (yo + k) := by
    intro j a v h
    simp only [levelBody, List.mem_append, List.mem_map] at h
    rcases h with ⟨i, -, h⟩ | ⟨i, -, h⟩
    · cases h
    · cases h; exact ⟨_, rfl⟩
  refine ⟨fun k => fold_frame (fun i _ a v h e => ?_) m, fun k hk => fold_frame (fun i _ a v h e => ?_) m, ?_⟩
  · obtain ⟨i, rfl⟩ := hst h; cases e
  · obtain ⟨i, rfl⟩ := hst h
    have := Sum.inr.inj e
    omega
  · exact (fold_proj (buf yo) (fun _ => True) _ _ (fun i _ m' _ => ⟨trivial, levelBody_run r s f hf yo i m'⟩) m trivial).2

theorem last_fold (add : Bool) (r cnt mm : ℕ) (tw : ℤ → ℂ) (yo xo xn : ℕ) (m : FMem) :
    let m' := (List.range cnt).foldl (fun m i => accesses i (lastBody add r cnt mm tw yo xo xn i) m) m
    (∀ k, k < xo ∨ xo + xn ≤ k → m'.cell (.inl k) = m.cell (.inl k)) ∧
      (fun i => reals m' (xo + i)) = isrfftLast add r cnt mm tw (buf yo m) xn fun i => reals m (xo + i) := by
  refine ⟨fun k hk => fold_frame (fun i _ a v h e => ?_) m, ?_⟩
  · obtain ⟨i, hi, rfl⟩ := lastBody_store h
    have := Sum.inl.inj e
    omega
  · refine (fold_proj (fun m i => reals m (xo + i)) (fun m' => ∀ k, m'.cell (.inr k) = m.cell (.inr k))
      (fun i m => accesses i (lastBody add r cnt mm tw yo xo xn i) m)
      (fun j x => scatterX add xn j cnt (transposeR (2 ^ r / 2) (firstLevels r j cnt mm tw) fun i => buf yo m (j + i * cnt)) (2 ^ r) x)
      (fun i _ m' hm' => ?_) m fun _ => rfl).2
    obtain ⟨h1, h2⟩ := lastBody_run add r cnt mm tw yo xo xn i m'
    refine ⟨fun k => (h1 k).trans (hm' k), ?_⟩
    have e : buf yo m' = buf yo m := by funext k; simp only [buf, hm']
    rw [h2, e]

theorem mulCwise_fold (n : ℕ) (a : ℝ) (m : FMem) :
    let m' := (List.range n).foldl (fun m i => accesses i (mulCwiseBody 0 n a i) m) m
    (∀ k, m'.cell (.inl k) = m.cell (.inl k)) ∧ buf 0 m' = mulCwise n (buf 0 m) (buf n m) a := by
  have hst : ∀ {j b v}, Access.store b v ∈ mulCwiseBody 0 n a j → b = .inr j := by
    intro j b v h
    simp only [mulCwiseBody, Nat.zero_add, List.mem_cons, reduceCtorEq, List.not_mem_nil, or_false, false_or] at h
    cases h; rfl
  refine ⟨fun k => fold_frame (fun i _ b v h e => ?_) m, ?_⟩
  · rw [hst h] at e; cases e
  · refine (fold_proj (buf 0) (fun m' => ∀ k, n ≤ k → m'.cell (.inr k) = m.cell (.inr k)) (fun i m => accesses i (mulCwiseBody 0 n a i) m)
      (fun i fx => Function.update fx i ((a : ℂ) * fx i * buf n m i)) (fun i hi m' hm' => ?_) m fun _ _ => rfl).2
    refine ⟨fun k hk => ?_, ?_⟩
    · rw [accesses_frame, hm' k hk]
      intro b v h e
      rw [hst h] at e
      have := Sum.inr.inj e
      omega
    · have e : buf n m i = m'.cell (.inr (n + i)) := (hm' _ (by omega)).symm
      rw [e]
      funext k
      by_cases hk : k = i
      · subst hk
        rw [Function.update_self]
        simp [buf, accesses, mulCwiseBody, Access.step]
      · rw [Function.update_of_ne hk]
        simp [buf, accesses, mulCwiseBody, Access.step, hk]

theorem sqrCwiseBody_noRaces (n : ℕ) (a : ℝ) : NoRaces n (sqrCwiseBody 0 a) := by
  refine noRaces_own (fun _ => False) (fun a => match a with | .inl _ => 0 | .inr k => k) ?_ ?_
  · intro j hj a v h
    simp only [sqrCwiseBody, Nat.zero_add, List.mem_cons, reduceCtorEq, List.not_mem_nil, or_false, false_or] at h
    cases h
    exact ⟨id, rfl⟩
  · intro j hj k a h
    simp only [sqrCwiseBody, Nat.zero_add, List.mem_cons, reduceCtorEq, List.not_mem_nil, or_false] at h
    cases h; exact .inr rfl

theorem sqrCwise_fold (n : ℕ) (a : ℝ) (m : FMem) :
    let m' := (List.range n).foldl (fun m i => accesses i (sqrCwiseBody 0 a i) m) m
    (∀ k, m'.cell (.inl k) = m.cell (.inl k)) ∧ buf 0 m' = sqrCwise n (buf 0 m) a := by
  have hst : ∀ {j b v}, Access.store b v ∈ sqrCwiseBody 0 a j → b = .inr j := by
    intro j b v h
    simp only [sqrCwiseBody, Nat.zero_add, List.mem_cons, reduceCtorEq, List.not_mem_nil, or_false, false_or] at h
    cases h; rfl
  refine ⟨fun k => fold_frame (fun i _ b v h e => ?_) m, ?_⟩
  · rw [hst h] at e; cases e
  · refine (fold_proj (buf 0) (fun _ => True) (fun i m => accesses i (sqrCwiseBody 0 a i) m) _ (fun i hi m' _ => ⟨trivial, ?_⟩) m trivial).2
    funext k
    by_cases hk : k = i
    · subst hk
      rw [Function.update_self]
      simp [buf, accesses, sqrCwiseBody, Access.step]
    · rw [Function.update_of_ne hk]
      simp [buf, accesses, sqrCwiseBody, Access.step, hk]

/-! ## Base cases -/

theorem stores_real (j zo n : ℕ) (v : ℕ → (ℕ → ℂ) → ℝ) (m : FMem) :
    reals (accesses j ((List.range n).map fun i => Access.store (.inl (zo + i)) fun reg => ((v i reg : ℝ) : ℂ)) m) =
      storeAt (reals m) zo n (fun i => v i (m.regs j)) ∧
    (accesses j ((List.range n).map fun i => Access.store (.inl (zo + i)) fun reg => ((v i reg : ℝ) : ℂ)) m).regs = m.regs := by
  rw [← store_loop]
  induction n with
  | zero => exact ⟨rfl, rfl⟩
  | succ n ih =>
    obtain ⟨h1, h2⟩ := ih
    rw [List.range_succ, List.map_append, accesses_append]
    refine ⟨?_, h2⟩
    rw [forLoop_succ, ← h1]
    funext k
    show ((Function.update _ _ _ : Addr → ℂ) _).re = _
    by_cases hk : k = zo + n
    · subst hk
      rw [Function.update_self, Function.update_self, Complex.ofReal_re, h2]
    · rw [Function.update_of_ne hk, Function.update_of_ne (by simpa using hk)]
      rfl

theorem mulBaseBody_run (zo nz xo nx yo ny : ℕ) (m : FMem) :
    reals (accesses 0 (mulBaseBody zo nz xo nx yo ny) m) =
      mulBaseMem (reals m) zo nz (spanAt (reals m) xo nx) (spanAt (reals m) yo ny) := by
  rw [mulBaseBody, accesses_append, accesses_append, mulBaseMem, store_loop]
  have h1 := accesses_loads (V := ℂ) 0 0 mulBaseN (fun i => i < nx) (fun i => (.inl (xo + i) : Addr)) m
  simp only [Nat.zero_add] at h1
  generalize accesses 0 (List.flatMap (fun i => if i < nx then [Access.load i (.inl (xo + i) : Addr)] else []) (List.range mulBaseN)) m = m1 at *
  obtain ⟨a1, a2, -⟩ := h1
  have h2 := accesses_loads (V := ℂ) 0 mulBaseN mulBaseN (fun i => i < ny) (fun i => (.inl (yo + i) : Addr)) m1
  generalize accesses 0 (List.flatMap (fun i => if i < ny then [Access.load (mulBaseN + i) (.inl (yo + i) : Addr)] else [])
    (List.range mulBaseN)) m1 = m2 at *
  obtain ⟨b1, b2, b3⟩ := h2
  have e : reals m2 = reals m := by unfold reals; rw [b1, a1]
  rw [(stores_real 0 zo _ _ m2).1, e]
  funext k
  rw [storeAt, storeAt]
  by_cases hk : zo ≤ k ∧ k < zo + min nz mulBaseN
  · rw [if_pos hk, if_pos hk]
    have hk8 : k - zo < mulBaseN := by omega
    refine Finset.sum_congr rfl fun j hj => ?_
    rw [Finset.mem_range] at hj
    have e1 : (if j < nx then (m2.regs 0 j).re else 0) = (spanAt (reals m) xo nx).getZ j := by
      show _ = if j < nx then _ else (0 : ℝ)
      by_cases h : j < nx
      · rw [if_pos h, if_pos h, b3 j (fun i _ => by omega), a2 j (by omega) h]; rfl
      · rw [if_neg h, if_neg h]
    have e2 : (if k - zo - j < ny then (m2.regs 0 (mulBaseN + (k - zo - j))).re else 0) = (spanAt (reals m) yo ny).getZ (k - zo - j) := by
      show _ = if k - zo - j < ny then _ else (0 : ℝ)
      by_cases h : k - zo - j < ny
      · rw [if_pos h, if_pos h, b2 _ (by omega) h, a1]; rfl
      · rw [if_neg h, if_neg h]
    rw [e1, e2]
  · rw [if_neg hk, if_neg hk]

theorem sqrBaseBody_run (yo ny xo nx : ℕ) (m : FMem) :
    reals (accesses 0 (sqrBaseBody yo ny xo nx) m) = sqrBaseMem (reals m) yo ny (spanAt (reals m) xo nx) := by
  rw [sqrBaseBody, accesses_append, sqrBaseMem, store_loop]
  have h1 := accesses_loads (V := ℂ) 0 0 mulBaseN (fun i => i < nx) (fun i => (.inl (xo + i) : Addr)) m
  simp only [Nat.zero_add] at h1
  generalize accesses 0 (List.flatMap (fun i => if i < nx then [Access.load i (.inl (xo + i) : Addr)] else []) (List.range mulBaseN)) m = m1 at *
  obtain ⟨a1, a2, -⟩ := h1
  have e : reals m1 = reals m := by unfold reals; rw [a1]
  rw [(stores_real 0 yo _ _ m1).1, e]
  funext k
  rw [storeAt, storeAt]
  by_cases hk : yo ≤ k ∧ k < yo + min ny mulBaseN
  · rw [if_pos hk, if_pos hk]
    have hk8 : k - yo < mulBaseN := by omega
    have e1 : ∀ j < mulBaseN, (if j < nx then (m1.regs 0 j).re else 0) = (spanAt (reals m) xo nx).getZ j := by
      intro j hj
      show _ = if j < nx then _ else (0 : ℝ)
      by_cases h : j < nx
      · rw [if_pos h, if_pos h, a2 j hj h]; rfl
      · rw [if_neg h, if_neg h]
    beta_reduce
    rw [e1 ((k - yo) / 2) (by omega)]
    congr 2
    refine Finset.sum_congr rfl fun j hj => ?_
    have hj := Finset.mem_range.mp (Finset.mem_filter.mp hj).1
    rw [e1 j (by omega), e1 (k - yo - j) (by omega)]
  · rw [if_neg hk, if_neg hk]

end Mandelbrot.Device
