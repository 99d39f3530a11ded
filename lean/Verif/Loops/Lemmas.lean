import Verif.Loops.Model
import Mathlib.Algebra.BigOperators.Group.Finset.Basic
import Mathlib.Algebra.Order.BigOperators.Group.Finset
import Mathlib.Data.List.GetD
import Mathlib.Data.List.Range

/-!
# Lemmas about partition_loop and map_reduce
-/

namespace Mandelbrot

/-- The start of chunk `t`, as a formula. -/
def chunkStart (n T t : ℤ) : ℤ := n / T * t + min (n % T) t

theorem partitionLoop_eq {n T t : ℤ} (hn : 0 ≤ n) (ht : 0 ≤ t) (htT : t < T) :
    partitionLoop n T t = .ok (chunkStart n T t, chunkStart n T (t + 1)) := by
  have h : T > 0 ∧ (0 ≤ t ∧ t < T) ∧ n ≥ 0 := ⟨by omega, ⟨ht, htT⟩, hn⟩
  simp only [partitionLoop, slowAssert_true h, bok, pok, chunkStart]
  have e : n / T * t + min (n % T) t + n / T + (if t < n % T then 1 else 0) =
      n / T * (t + 1) + min (n % T) (t + 1) := by
    have : n / T * (t + 1) = n / T * t + n / T := by ring
    rw [this]
    split_ifs <;> omega
  rw [e]

theorem partitionLoop_err {n T t : ℤ} (h : ¬ (T > 0 ∧ (0 ≤ t ∧ t < T) ∧ n ≥ 0)) :
    partitionLoop n T t = .error .assertion := by
  simp only [partitionLoop, slowAssert_false h, berr]

theorem chunkStart_zero {n T : ℤ} (hT : 0 < T) : chunkStart n T 0 = 0 := by
  have := Int.emod_nonneg n hT.ne'
  simp only [chunkStart]; omega

theorem chunkStart_last {n T : ℤ} (hT : 0 < T) : chunkStart n T T = n := by
  have h1 := Int.emod_lt_of_pos n hT
  have h2 := Int.ediv_mul_add_emod n T
  simp only [chunkStart]
  rw [min_eq_left h1.le]
  exact h2

theorem chunkStart_succ (n T t : ℤ) :
    chunkStart n T (t + 1) = chunkStart n T t + n / T + (if t < n % T then 1 else 0) := by
  simp only [chunkStart]
  have : n / T * (t + 1) = n / T * t + n / T := by ring
  rw [this]
  split_ifs <;> omega

theorem chunkStart_mono {n T : ℤ} (hn : 0 ≤ n) (hT : 0 < T) (t : ℤ) :
    chunkStart n T t ≤ chunkStart n T (t + 1) := by
  have := Int.ediv_nonneg hn hT.le
  rw [chunkStart_succ]
  split_ifs <;> omega

variable {Y : Type} (reduce : Y → Y → Y) (map : ℤ → Y)

/-- The mapped values for indices `a..b-1`. -/
def mapped (a b : ℤ) : List Y := (List.range (b - a).toNat).map fun k : ℕ => map (a + k)

/-- Left fold of a nonempty list, `none` for the empty one. -/
def fold1 : List Y → Option Y
  | [] => none
  | x :: l => some (l.foldl reduce x)

theorem mapped_empty {a b : ℤ} (h : b ≤ a) : mapped map a b = [] := by
  rw [mapped, Int.toNat_of_nonpos (by omega)]; rfl

theorem mapped_succ {a b : ℤ} (h : a ≤ b) : mapped map a (b + 1) = mapped map a b ++ [map b] := by
  rw [mapped, mapped, show (b + 1 - a).toNat = (b - a).toNat + 1 by omega, List.range_succ]
  rw [List.map_append, List.map_cons, List.map_nil, show a + ((b - a).toNat : ℤ) = b by omega]

theorem mapped_append {a b : ℤ} (c : ℤ) (hab : a ≤ b) (hbc : b ≤ c) :
    mapped map a b ++ mapped map b c = mapped map a c := by
  obtain ⟨k, rfl⟩ : ∃ k : ℕ, c = b + k := ⟨(c - b).toNat, by omega⟩
  clear hbc
  induction k with
  | zero => rw [Nat.cast_zero, add_zero, mapped_empty map le_rfl, List.append_nil]
  | succ k ih =>
    have e : b + ((k + 1 : ℕ) : ℤ) = b + k + 1 := by push_cast; ring
    rw [e, mapped_succ map (by omega), mapped_succ map (show a ≤ b + k by omega), ← List.append_assoc, ih]

theorem fold1_append_singleton {l : List Y} {p : Y} (h : fold1 reduce l = some p) (x : Y) :
    fold1 reduce (l ++ [x]) = some (reduce p x) := by
  cases l with
  | nil => cases h
  | cons y l =>
    simp only [fold1, Option.some.injEq] at h
    simp [fold1, h]

theorem fold1_none {l : List Y} (h : fold1 reduce l = none) : l = [] := by
  cases l with
  | nil => rfl
  | cons y l => cases h

/-- Folding a folded chunk equals folding its elements. -/
theorem foldl_fold1 (hassoc : ∀ y a b, reduce (reduce y a) b = reduce y (reduce a b)) (y : Y) (l : List Y) :
    (match fold1 reduce l with | some t => reduce y t | none => y) = l.foldl reduce y := by
  cases l with
  | nil => rfl
  | cons x l =>
    simp only [fold1, List.foldl_cons]
    induction l generalizing x with
    | nil => rfl
    | cons z l ih => rw [List.foldl_cons, List.foldl_cons, ih, hassoc]

namespace MRState

variable (n : ℤ) (T : ℕ)

/-- What slot `t` must hold. -/
def expect (t : ℕ) : MRPc → Option Y
  | .loop _ i => fold1 reduce (mapped map (chunkStart n T t) i)
  | .done => fold1 reduce (mapped map (chunkStart n T t) (chunkStart n T (t + 1)))
  | _ => none

/-- What slot `t` holds. -/
def slot (s : MRState Y) (t : ℕ) : Option Y := (s.partials[t]?).join

/-- Invariant of the parallel region. -/
structure Inv (s : MRState Y) : Prop where
  lock_iff : ∀ t, t < T → (s.lock = some t ↔ (s.pc t = .inCritical ∨ s.pc t = .leaving))
  lock_lt : ∀ t, s.lock = some t → t < T
  size : s.partials.length = 0 ∨ s.partials.length = T
  full : ∀ t, t < T → (s.pc t ≠ .start ∧ s.pc t ≠ .inCritical) → chunkStart n T t < chunkStart n T (t + 1) →
    s.partials.length = T
  work : ∀ t, t < T → (s.pc t ≠ .start ∧ s.pc t ≠ .done) → chunkStart n T t < chunkStart n T (t + 1)
  ref : ∀ t a i, t < T → s.pc t = .loop a i → a = s.alloc ∧ chunkStart n T t ≤ i ∧
    i ≤ chunkStart n T (t + 1)
  value : ∀ t, t < T → s.slot t = expect reduce map n T t (s.pc t)

theorem inv_init : Inv reduce map n T (init : MRState Y) where
  lock_iff := by intro t _; simp [init]
  lock_lt := by intro t h; simp [init] at h
  size := Or.inl rfl
  full := by intro t _ h; exact absurd rfl h.1
  work := by intro t _ h; exact absurd rfl h.1
  ref := by intro t a i _ h; cases h
  value := by intro t _; simp [slot, init, expect]

theorem resize_length (s : MRState Y) : (s.resize T).partials.length = T := by
  unfold resize
  split_ifs with h1 h2
  · exact h1
  · simp; omega
  · simp; omega

theorem resize_pc (s : MRState Y) : (s.resize T).pc = s.pc := by
  unfold resize; split_ifs <;> rfl

theorem resize_lock (s : MRState Y) : (s.resize T).lock = s.lock := by
  unfold resize; split_ifs <;> rfl

theorem resize_alloc {s : MRState Y} (h : s.partials.length = T) : (s.resize T) = s := by
  unfold resize; rw [if_pos h]

theorem resize_slot {s : MRState Y} (h : s.partials.length = 0 ∨ s.partials.length = T) (t : ℕ) :
    (s.resize T).slot t = s.slot t := by
  unfold resize
  split_ifs with h1 h2
  · rfl
  · have h0 : s.partials = [] := by
      rcases h with h | h
      · exact List.length_eq_zero_iff.mp h
      · exact absurd h h1
    simp only [slot, h0, List.nil_append, List.length_nil, Nat.sub_zero]
    rw [List.getElem?_replicate]
    split_ifs <;> rfl
  · rcases h with h | h <;> omega

variable {reduce map n T}

theorem set_slot {s : MRState Y} {t : ℕ} (ht : t < s.partials.length) (v : Y) (pc : ℕ → MRPc)
    (u : ℕ) :
    ({ s with partials := s.partials.set t (some v), pc := pc } : MRState Y).slot u =
      if u = t then some v else s.slot u := by
  simp only [slot, List.getElem?_set]
  by_cases h : u = t
  · subst h; simp [ht]
  · simp [Ne.symm h, h]

/-- Every enabled step of a thread succeeds and keeps the invariant. -/
theorem Inv.step (hn : 0 ≤ n) {s : MRState Y} (h : Inv reduce map n T s) {t : ℕ} (ht : t < T)
    {r : Res (MRState Y)} (e : s.step reduce map n T t = some r) :
    ∃ s', r = .ok s' ∧ Inv reduce map n T s' := by
  have hp := partitionLoop_eq (n := n) (T := T) (t := t) hn (by omega) (by omega)
  have hTpos : (0 : ℤ) < T := by omega
  unfold MRState.step at e
  rw [hp] at e
  simp only at e
  cases hpc : s.pc t with
  | start =>
    rw [hpc] at e
    simp only at e
    have hv := h.value t ht
    rw [hpc] at hv
    split_ifs at e with h1 h2
    · cases e
      refine ⟨_, rfl, ?_⟩
      constructor
      · intro u hu
        by_cases hut : u = t
        · subst hut; simp
        · simp only [Function.update_of_ne hut, Option.some.injEq]
          have h3 := h.lock_iff u hu
          rw [h2] at h3
          constructor
          · intro h4; exact absurd h4.symm hut
          · intro h4; exact absurd (h3.mpr h4) (by simp)
      · intro u hu; simp only [Option.some.injEq] at hu; omega
      · exact h.size
      · intro u hu h3 h4
        by_cases hut : u = t
        · subst hut; simp at h3
        · simp only [Function.update_of_ne hut] at h3
          exact h.full u hu h3 h4
      · intro u hu h3
        by_cases hut : u = t
        · subst hut; exact h1
        · simp only [Function.update_of_ne hut] at h3
          exact h.work u hu h3
      · intro u a i hu h3
        by_cases hut : u = t
        · subst hut; simp at h3
        · simp only [Function.update_of_ne hut] at h3
          exact h.ref u a i hu h3
      · intro u hu
        by_cases hut : u = t
        · subst hut; simp only [Function.update_self]; exact hv
        · simp only [Function.update_of_ne hut]; exact h.value u hu
    · cases e
      refine ⟨_, rfl, ?_⟩
      constructor
      · intro u hu
        by_cases hut : u = t
        · subst hut
          have := h.lock_iff u hu
          rw [hpc] at this
          simpa using this
        · simp only [Function.update_of_ne hut]; exact h.lock_iff u hu
      · exact h.lock_lt
      · exact h.size
      · intro u hu h3 h4
        by_cases hut : u = t
        · subst hut; exact absurd h4 h1
        · simp only [Function.update_of_ne hut] at h3
          exact h.full u hu h3 h4
      · intro u hu h3
        by_cases hut : u = t
        · subst hut; simp at h3
        · simp only [Function.update_of_ne hut] at h3
          exact h.work u hu h3
      · intro u a i hu h3
        by_cases hut : u = t
        · subst hut; simp at h3
        · simp only [Function.update_of_ne hut] at h3
          exact h.ref u a i hu h3
      · intro u hu
        by_cases hut : u = t
        · subst hut
          simp only [Function.update_self, expect]
          rw [mapped_empty map (by omega)]
          exact hv
        · simp only [Function.update_of_ne hut]; exact h.value u hu
  | inCritical =>
    rw [hpc] at e
    simp only [resize_pc] at e
    cases e
    refine ⟨_, rfl, ?_⟩
    have hlock : s.lock = some t := (h.lock_iff t ht).mpr (Or.inl hpc)
    have hw := h.work t ht (by rw [hpc]; simp)
    constructor
    · intro u hu
      simp only [resize_lock]
      by_cases hut : u = t
      · subst hut; simp [hlock]
      · simp only [Function.update_of_ne hut]; exact h.lock_iff u hu
    · intro u hu
      simp only [resize_lock] at hu
      exact h.lock_lt u hu
    · exact Or.inr (resize_length T s)
    · intro u hu _ _; exact resize_length T s
    · intro u hu h3
      by_cases hut : u = t
      · subst hut; exact hw
      · simp only [Function.update_of_ne hut] at h3
        exact h.work u hu h3
    · intro u a i hu h3
      by_cases hut : u = t
      · subst hut; simp at h3
      · simp only [Function.update_of_ne hut] at h3
        have h4 := h.ref u a i hu h3
        have h5 := h.full u hu (by rw [h3]; simp) (h.work u hu (by rw [h3]; simp))
        simp only [resize_alloc T h5]
        exact h4
    · intro u hu
      have h4 : ({ s.resize T with pc := Function.update s.pc t .leaving } : MRState Y).slot u = s.slot u :=
        resize_slot T h.size u
      rw [h4, h.value u hu]
      by_cases hut : u = t
      · subst hut; simp only [Function.update_self, hpc, expect]
      · simp only [Function.update_of_ne hut]
  | leaving =>
    rw [hpc] at e
    simp only at e
    cases e
    refine ⟨_, rfl, ?_⟩
    have hlock : s.lock = some t := (h.lock_iff t ht).mpr (Or.inr hpc)
    constructor
    · intro u hu
      by_cases hut : u = t
      · subst hut; simp
      · simp only [Function.update_of_ne hut]
        have := h.lock_iff u hu
        rw [hlock] at this
        constructor
        · intro h4; cases h4
        · intro h4; have h5 := this.mpr h4; simp only [Option.some.injEq] at h5; exact absurd h5.symm hut
    · intro u hu; cases hu
    · exact h.size
    · intro u hu h3 h4
      by_cases hut : u = t
      · subst hut; exact h.full u hu (by rw [hpc]; simp) h4
      · simp only [Function.update_of_ne hut] at h3
        exact h.full u hu h3 h4
    · intro u hu h3
      by_cases hut : u = t
      · subst hut; exact h.work u hu (by rw [hpc]; simp)
      · simp only [Function.update_of_ne hut] at h3
        exact h.work u hu h3
    · intro u a i hu h3
      by_cases hut : u = t
      · subst hut; simp at h3
      · simp only [Function.update_of_ne hut] at h3
        exact h.ref u a i hu h3
    · intro u hu
      have hv := h.value u hu
      by_cases hut : u = t
      · subst hut; rw [hpc] at hv; simp only [Function.update_self]; exact hv
      · simp only [Function.update_of_ne hut]; exact hv
  | getRef =>
    rw [hpc] at e
    simp only at e
    have hw := h.work t ht (by rw [hpc]; simp)
    have hf := h.full t ht (by rw [hpc]; simp) hw
    rw [if_pos (by omega)] at e
    cases e
    refine ⟨_, rfl, ?_⟩
    constructor
    · intro u hu
      by_cases hut : u = t
      · subst hut
        have := h.lock_iff u hu
        rw [hpc] at this
        simpa using this
      · simp only [Function.update_of_ne hut]; exact h.lock_iff u hu
    · exact h.lock_lt
    · exact h.size
    · intro u hu _ _; exact hf
    · intro u hu h3
      by_cases hut : u = t
      · subst hut; exact hw
      · simp only [Function.update_of_ne hut] at h3
        exact h.work u hu h3
    · intro u a i hu h3
      by_cases hut : u = t
      · subst hut
        simp only [Function.update_self, MRPc.loop.injEq] at h3
        exact ⟨h3.1.symm, by omega, by omega⟩
      · simp only [Function.update_of_ne hut] at h3
        exact h.ref u a i hu h3
    · intro u hu
      have hv := h.value u hu
      by_cases hut : u = t
      · subst hut
        rw [hpc] at hv
        simp only [Function.update_self, expect]
        rw [mapped_empty map le_rfl]
        exact hv
      · simp only [Function.update_of_ne hut]; exact hv
  | loop a i =>
    rw [hpc] at e
    simp only at e
    have hw := h.work t ht (by rw [hpc]; simp)
    have hf := h.full t ht (by rw [hpc]; simp) hw
    obtain ⟨h1, h2, h3⟩ := h.ref t a i ht hpc
    have hv := h.value t ht
    rw [hpc] at hv
    simp only [expect] at hv
    -- what a write of `v` to the own slot gives
    have write : ∀ v : Y, i < chunkStart n T (t + 1) →
        fold1 reduce (mapped map (chunkStart n T t) (i + 1)) = some v →
        Inv reduce map n T { s with
          partials := s.partials.set t (some v)
          pc := Function.update s.pc t (.loop a (i + 1)) } := by
      intro v hi hfold
      constructor
      · intro u hu
        by_cases hut : u = t
        · subst hut
          have := h.lock_iff u hu
          rw [hpc] at this
          simpa using this
        · simp only [Function.update_of_ne hut]; exact h.lock_iff u hu
      · exact h.lock_lt
      · simp only [List.length_set]; exact h.size
      · intro u hu _ _; simp only [List.length_set]; exact hf
      · intro u hu h4
        by_cases hut : u = t
        · subst hut; exact hw
        · simp only [Function.update_of_ne hut] at h4
          exact h.work u hu h4
      · intro u b j hu h4
        by_cases hut : u = t
        · subst hut
          simp only [Function.update_self, MRPc.loop.injEq] at h4
          exact ⟨by rw [← h4.1]; exact h1, by omega, by omega⟩
        · simp only [Function.update_of_ne hut] at h4
          exact h.ref u b j hu h4
      · intro u hu
        rw [set_slot (by omega)]
        by_cases hut : u = t
        · subst hut
          simp only [if_true, Function.update_self, expect]
          exact hfold.symm
        · simp only [if_neg hut, Function.update_of_ne hut]; exact h.value u hu
    by_cases hi : i < chunkStart n T (t + 1)
    · rw [if_pos hi, if_pos h1] at e
      by_cases his : i = chunkStart n T t
      · rw [if_pos his] at e
        cases e
        refine ⟨_, rfl, write _ hi ?_⟩
        rw [mapped_succ map h2, mapped_empty map (by omega)]
        rfl
      · rw [if_neg his] at e
        -- the slot holds the partial fold
        have hne : mapped map (chunkStart n T t) i ≠ [] := by
          intro hc
          have := congrArg List.length hc
          rw [mapped, List.length_map, List.length_range, List.length_nil] at this
          omega
        obtain ⟨p, hp⟩ : ∃ p, fold1 reduce (mapped map (chunkStart n T t) i) = some p := by
          cases hc : fold1 reduce (mapped map (chunkStart n T t) i) with
          | none => exact absurd (fold1_none reduce hc) hne
          | some p => exact ⟨p, rfl⟩
        rw [hp, slot, Option.join_eq_some_iff] at hv
        rw [hv] at e
        simp only at e
        cases e
        refine ⟨_, rfl, write _ hi ?_⟩
        rw [mapped_succ map h2]
        exact fold1_append_singleton reduce hp _
    · rw [if_neg hi] at e
      cases e
      refine ⟨_, rfl, ?_⟩
      have hie : i = chunkStart n T (t + 1) := by omega
      constructor
      · intro u hu
        by_cases hut : u = t
        · subst hut
          have := h.lock_iff u hu
          rw [hpc] at this
          simpa using this
        · simp only [Function.update_of_ne hut]; exact h.lock_iff u hu
      · exact h.lock_lt
      · exact h.size
      · intro u hu _ _; exact hf
      · intro u hu h4
        by_cases hut : u = t
        · subst hut; exact hw
        · simp only [Function.update_of_ne hut] at h4
          exact h.work u hu h4
      · intro u b j hu h4
        by_cases hut : u = t
        · subst hut; simp at h4
        · simp only [Function.update_of_ne hut] at h4
          exact h.ref u b j hu h4
      · intro u hu
        by_cases hut : u = t
        · subst hut
          simp only [Function.update_self, expect]
          rw [← hie]
          exact hv
        · simp only [Function.update_of_ne hut]; exact h.value u hu
  | done =>
    rw [hpc] at e
    cases e

theorem inv_steps (hn : 0 ≤ n) {r : Res (MRState Y)} (h : Steps reduce map n T init r) :
    ∃ s, r = .ok s ∧ Inv reduce map n T s := by
  generalize hs0 : (init : MRState Y) = s0 at h
  induction h with
  | refl => exact ⟨_, rfl, hs0 ▸ inv_init reduce map n T⟩
  | tail hsteps ht e ih =>
    obtain ⟨s1, h1, h2⟩ := ih
    cases h1
    exact h2.step hn ht e

/-- Folding the slots in order. -/
theorem foldl_slots {l : List (Option Y)} {c : ℕ → List Y}
    (hassoc : ∀ y a b, reduce (reduce y a) b = reduce y (reduce a b))
    (h : ∀ t (ht : t < l.length), l[t] = fold1 reduce (c t)) (y : Y) :
    l.foldl (fun y t => match t with | some t => reduce y t | none => y) y =
      ((List.range l.length).flatMap c).foldl reduce y := by
  induction l using List.reverseRecOn generalizing y with
  | nil => rfl
  | append_singleton l x ih =>
    rw [List.foldl_append, ih]
    · simp only [List.foldl_cons, List.foldl_nil, List.length_append, List.length_singleton]
      rw [List.range_succ, List.flatMap_append, List.foldl_append]
      have h1 := h l.length (by simp)
      rw [List.getElem_append_right le_rfl] at h1
      simp only [Nat.sub_self, List.getElem_cons_zero] at h1
      rw [h1]
      simp only [List.flatMap_cons, List.flatMap_nil, List.append_nil]
      exact foldl_fold1 reduce hassoc _ _
    · intro t ht
      have := h t (by simp; omega)
      rwa [List.getElem_append_left ht] at this

theorem flatMap_chunks (hn : 0 ≤ n) (hT : 0 < T) (k : ℕ) (hk : k ≤ T) :
    (List.range k).flatMap (fun t : ℕ => mapped map (chunkStart n T t) (chunkStart n T (t + 1))) =
      mapped map 0 (chunkStart n T k) := by
  have hTpos : (0 : ℤ) < T := by omega
  have h0 := chunkStart_zero (n := n) hTpos
  have hmono : ∀ k : ℕ, 0 ≤ chunkStart n T k := by
    intro k
    induction k with
    | zero => simpa using h0.ge
    | succ k ih => have := chunkStart_mono hn hTpos k; push_cast; omega
  induction k with
  | zero => simp [h0, mapped_empty]
  | succ k ih =>
    rw [List.range_succ, List.flatMap_append, ih (by omega)]
    simp only [List.flatMap_cons, List.flatMap_nil, List.append_nil]
    rw [mapped_append map _ (hmono k) (chunkStart_mono hn hTpos k)]
    push_cast
    rfl

theorem finish_eq (hn : 0 ≤ n) (hT : 0 < T)
    (hassoc : ∀ y a b, reduce (reduce y a) b = reduce y (reduce a b)) {s : MRState Y}
    (h : Inv reduce map n T s) (hdone : ∀ t < T, s.pc t = .done) (y : Y) :
    s.finish reduce y = (mapped map 0 n).foldl reduce y := by
  have hTpos : (0 : ℤ) < T := by omega
  have hall : mapped map 0 n =
      (List.range T).flatMap (fun t : ℕ => mapped map (chunkStart n T t) (chunkStart n T (t + 1))) := by
    rw [flatMap_chunks hn hT T le_rfl, chunkStart_last hTpos]
  have hv : ∀ t < T, s.slot t =
      fold1 reduce (mapped map (chunkStart n T t) (chunkStart n T (t + 1))) := by
    intro t ht
    have := h.value t ht
    rwa [hdone t ht] at this
  rcases h.size with hz | hz
  · -- nothing was ever stored, so all chunks are empty
    have hempty : s.partials = [] := List.length_eq_zero_iff.mp hz
    have hnil : mapped map 0 n = [] := by
      rw [hall, List.flatMap_eq_nil_iff]
      intro t ht
      rw [List.mem_range] at ht
      have := hv t ht
      simp only [slot, hempty, List.getElem?_nil, Option.join_none] at this
      exact fold1_none reduce this.symm
    rw [hnil, finish, hempty]
    rfl
  · rw [hall, finish]
    have := foldl_slots (l := s.partials)
      (c := fun t : ℕ => mapped map (chunkStart n T t) (chunkStart n T (t + 1))) hassoc (by
        intro t ht
        have := hv t (by omega)
        rwa [slot, List.getElem?_eq_getElem ht, Option.join_some] at this) y
    rw [hz] at this
    exact this

/-- No deadlock: while some thread is not done, some thread can step. -/
theorem Inv.progress (hn : 0 ≤ n) {s : MRState Y} (h : Inv reduce map n T s)
    (hnd : ∃ t < T, s.pc t ≠ .done) : ∃ t < T, ∃ r, s.step reduce map n T t = some r := by
  obtain ⟨t, ht, hpc⟩ := hnd
  by_cases hl : s.lock = none
  · refine ⟨t, ht, ?_⟩
    have hp := partitionLoop_eq (n := n) (T := T) (t := t) hn (by omega) (by omega)
    unfold MRState.step
    rw [hp]
    simp only [hl, if_true]
    cases hc : s.pc t with
    | start => simp only; split_ifs <;> exact ⟨_, rfl⟩
    | inCritical => exact ⟨_, rfl⟩
    | leaving => exact ⟨_, rfl⟩
    | getRef => simp only; split_ifs <;> exact ⟨_, rfl⟩
    | loop a i =>
      simp only
      split_ifs
      · exact ⟨_, rfl⟩
      · split <;> exact ⟨_, rfl⟩
      · exact ⟨_, rfl⟩
      · exact ⟨_, rfl⟩
    | done => exact absurd hc hpc
  · obtain ⟨u, hu⟩ := Option.ne_none_iff_exists'.mp hl
    have huT := h.lock_lt u hu
    refine ⟨u, huT, ?_⟩
    have hp := partitionLoop_eq (n := n) (T := T) (t := u) hn (by omega) (by omega)
    unfold MRState.step
    rw [hp]
    rcases (h.lock_iff u huT).mp hu with hc | hc <;> rw [hc] <;> exact ⟨_, rfl⟩

/-- Number of steps a thread can still take, at most. -/
def remaining (n : ℤ) (T : ℕ) (t : ℕ) : MRPc → ℕ
  | .start => (chunkStart n T (t + 1) - chunkStart n T t).toNat + 5
  | .inCritical => (chunkStart n T (t + 1) - chunkStart n T t).toNat + 4
  | .leaving => (chunkStart n T (t + 1) - chunkStart n T t).toNat + 3
  | .getRef => (chunkStart n T (t + 1) - chunkStart n T t).toNat + 2
  | .loop _ i => (chunkStart n T (t + 1) - i).toNat + 1
  | .done => 0

/-- Number of steps all threads can still take, at most. -/
def totalRemaining (n : ℤ) (T : ℕ) (s : MRState Y) : ℕ := ∑ t ∈ Finset.range T, remaining n T t (s.pc t)

theorem totalRemaining_lt {s s' : MRState Y} {t : ℕ} (ht : t < T) {pc : MRPc}
    (h : s'.pc = Function.update s.pc t pc) (hlt : remaining n T t pc < remaining n T t (s.pc t)) :
    totalRemaining n T s' < totalRemaining n T s := by
  refine Finset.sum_lt_sum (fun u _ => ?_) ⟨t, Finset.mem_range.mpr ht, ?_⟩
  · by_cases hu : u = t
    · subst hu; rw [h, Function.update_self]; exact hlt.le
    · rw [h, Function.update_of_ne hu]
  · rw [h, Function.update_self]; exact hlt

theorem Inv.step_decreases (hn : 0 ≤ n) {s s' : MRState Y} {t : ℕ} (ht : t < T)
    (e : s.step reduce map n T t = some (.ok s')) : totalRemaining n T s' < totalRemaining n T s := by
  have hp := partitionLoop_eq (n := n) (T := T) (t := t) hn (by omega) (by omega)
  unfold MRState.step at e
  rw [hp] at e
  simp only at e
  cases hpc : s.pc t with
  | start =>
    rw [hpc] at e
    simp only at e
    split_ifs at e <;> cases e <;>
      exact totalRemaining_lt ht rfl (by rw [hpc]; simp only [remaining]; omega)
  | inCritical =>
    rw [hpc] at e
    simp only [resize_pc] at e
    cases e
    exact totalRemaining_lt ht rfl (by rw [hpc]; simp only [remaining]; omega)
  | leaving =>
    rw [hpc] at e
    cases e
    exact totalRemaining_lt ht rfl (by rw [hpc]; simp only [remaining]; omega)
  | getRef =>
    rw [hpc] at e
    simp only at e
    split_ifs at e
    · cases e
      exact totalRemaining_lt ht rfl (by rw [hpc]; simp only [remaining]; omega)
    · simp at e
  | loop a i =>
    rw [hpc] at e
    simp only at e
    split_ifs at e with h1 h2 h3
    · cases e
      exact totalRemaining_lt ht rfl (by rw [hpc]; simp only [remaining]; omega)
    · split at e
      · cases e
        exact totalRemaining_lt ht rfl (by rw [hpc]; simp only [remaining]; omega)
      · simp at e
    · simp at e
    · cases e
      exact totalRemaining_lt ht rfl (by rw [hpc]; simp only [remaining]; omega)
  | done =>
    rw [hpc] at e
    cases e

end MRState

end Mandelbrot
