import Verif.Loops.Relational
import Verif.Loops.Stride
import Verif.Loops.Memory
import Mathlib.Tactic.NormNum
import Mathlib.Tactic.IntervalCases

/-!
# C01 to C04: loops
-/

namespace Mandelbrot

/-! ## C01 partition_loop -/

/-- Valid calls return ranges that start at 0, follow one another, end at `steps`, and whose lengths are
`steps / threads` or one more. -/
theorem C01_partition (steps threads : ℤ) (hs : 0 ≤ steps) (ht : 0 < threads) :
    ∃ lo hi : ℤ → ℤ,
      (∀ t, 0 ≤ t → t < threads → partitionLoop steps threads t = .ok (lo t, hi t)) ∧
      lo 0 = 0 ∧ hi (threads - 1) = steps ∧
      (∀ t, 0 ≤ t → t + 1 < threads → lo (t + 1) = hi t) ∧
      (∀ t u, 0 ≤ t → t ≤ u → u < threads →
        hi u - lo u ≤ hi t - lo t ∧ hi t - lo t ≤ hi u - lo u + 1 ∧ 0 ≤ hi u - lo u) := by
  refine ⟨chunkStart steps threads, fun t => chunkStart steps threads (t + 1), ?_, ?_, ?_, ?_, ?_⟩
  · intro t h0 h1
    exact partitionLoop_eq hs h0 h1
  · exact chunkStart_zero ht
  · simp only [sub_add_cancel]; exact chunkStart_last ht
  · intro t _ _; rfl
  · intro t u h0 h1 h2
    have := Int.ediv_nonneg hs ht.le
    simp only [chunkStart_succ]
    split_ifs <;> omega

/-- Every index of the loop belongs to exactly one thread. -/
theorem C01_unique_owner (steps threads : ℤ) (ht : 0 < threads) (i : ℤ) (h0 : 0 ≤ i) (h1 : i < steps) :
    ∃! t : ℤ, 0 ≤ t ∧ t < threads ∧
      ∃ lo hi, partitionLoop steps threads t = .ok (lo, hi) ∧ lo ≤ i ∧ i < hi := by
  have hs : 0 ≤ steps := by omega
  have mono : ∀ (t : ℤ) (k : ℕ), chunkStart steps threads t ≤ chunkStart steps threads (t + k) := by
    intro t k
    induction k with
    | zero => simp
    | succ k ih =>
      have h := chunkStart_mono hs ht (t + k)
      have e : t + ((k + 1 : ℕ) : ℤ) = t + k + 1 := by push_cast; ring
      rw [e]; omega
  have mono' : ∀ t u : ℤ, t ≤ u → chunkStart steps threads t ≤ chunkStart steps threads u := by
    intro t u h
    have := mono t (u - t).toNat
    rwa [show t + ((u - t).toNat : ℤ) = u by omega] at this
  -- existence
  have ex : ∀ k : ℕ, (k : ℤ) ≤ threads → i < chunkStart steps threads k →
      ∃ t : ℤ, 0 ≤ t ∧ t < k ∧ chunkStart steps threads t ≤ i ∧ i < chunkStart steps threads (t + 1) := by
    intro k
    induction k with
    | zero =>
      intro _ h
      rw [Nat.cast_zero, chunkStart_zero ht] at h
      omega
    | succ k ih =>
      intro hk h
      by_cases hc : i < chunkStart steps threads k
      · obtain ⟨t, g0, g1, g2⟩ := ih (by push_cast at hk; omega) hc
        exact ⟨t, g0, by push_cast; omega, g2⟩
      · push_cast at h
        exact ⟨k, by omega, by push_cast; omega, by omega, h⟩
  obtain ⟨t, g0, g1, g2, g3⟩ := ex threads.toNat (by omega) (by
    rw [Int.toNat_of_nonneg ht.le, chunkStart_last ht]; exact h1)
  rw [Int.toNat_of_nonneg ht.le] at g1
  refine ⟨t, ⟨g0, g1, _, _, partitionLoop_eq hs g0 g1, g2, g3⟩, ?_⟩
  rintro u ⟨u0, u1, lo, hi, e, k1, k2⟩
  rw [partitionLoop_eq hs u0 u1] at e
  cases e
  by_contra hne
  rcases lt_or_gt_of_ne hne with h | h
  · have := mono' (u + 1) t (by omega); omega
  · have := mono' (t + 1) u (by omega); omega

/-- Any other call throws. -/
theorem C01_throws (steps threads thread : ℤ) :
    partitionLoop steps threads thread = .error .assertion ↔
      (threads ≤ 0 ∨ thread < 0 ∨ threads ≤ thread ∨ steps < 0) := by
  constructor
  · intro h
    by_contra hc
    push Not at hc
    rw [partitionLoop_eq hc.2.2.2 hc.2.1 hc.2.2.1] at h
    cases h
  · intro h
    exact partitionLoop_err (by omega)

/-- C01 example: 11 steps over 4 threads. -/
example : partitionLoop 11 4 0 = .ok (0, 3) ∧ partitionLoop 11 4 2 = .ok (6, 9) ∧
    partitionLoop 11 4 3 = .ok (9, 11) := by decide

/-! ## C02 map_reduce -/

variable {Y : Type}

/-- The value the loop `for (i = 0; i < n; i++) reduce(y, map(i))` leaves in `y`. -/
def Spec.sequentialReduce (reduce : Y → Y → Y) (map : ℤ → Y) : ℕ → Y → Y
  | 0, y => y
  | k + 1, y => reduce (Spec.sequentialReduce reduce map k y) (map k)

theorem foldl_mapped (reduce : Y → Y → Y) (map : ℤ → Y) (k : ℕ) (y : Y) :
    (mapped map 0 k).foldl reduce y = Spec.sequentialReduce reduce map k y := by
  induction k with
  | zero => rw [Nat.cast_zero, mapped_empty map le_rfl]; rfl
  | succ k ih =>
    rw [Nat.cast_succ, mapped_succ map (by omega), List.foldl_append, ih]
    rfl

/-- For every number of threads and every interleaving that lets all threads finish, `map_reduce` leaves
in `y` what the sequential loop leaves.  Commutativity is not assumed. -/
theorem C02_map_reduce (reduce : Y → Y → Y) (map : ℤ → Y)
    (hassoc : ∀ y a b, reduce (reduce y a) b = reduce y (reduce a b)) (n : ℕ) (threads : ℕ)
    (hT : 0 < threads) (s : MRState Y) (h : MRState.Steps reduce map n threads MRState.init (.ok s))
    (hdone : ∀ t < threads, s.pc t = .done) (y : Y) :
    s.finish reduce y = Spec.sequentialReduce reduce map n y := by
  obtain ⟨s', e, hinv⟩ := MRState.inv_steps (by omega) h
  cases e
  rw [MRState.finish_eq (by omega) hT hassoc hinv hdone, foldl_mapped]

/-- C02 without associativity of the code's `reduce` (ball arithmetic): if `R` relates exact values to the
code's values and is preserved by `reduce`, then the exact sequential result is related to what any
interleaving leaves. -/
theorem C02_map_reduce_relational {Z : Type} (R : Z → Y → Prop) (reduce : Y → Y → Y) (map : ℤ → Y)
    (redZ : Z → Z → Z) (mapZ : ℤ → Z) (hassoc : ∀ y a b, redZ (redZ y a) b = redZ y (redZ a b))
    (hred : ∀ z y z' y', R z y → R z' y' → R (redZ z z') (reduce y y')) (n : ℕ)
    (hmap : ∀ i : ℤ, 0 ≤ i → i < n → R (mapZ i) (map i)) (threads : ℕ) (hT : 0 < threads) (s : MRState Y)
    (h : MRState.Steps reduce map n threads MRState.init (.ok s)) (hdone : ∀ t < threads, s.pc t = .done)
    (z : Z) (y : Y) (h0 : R z y) :
    R (Spec.sequentialReduce redZ mapZ n z) (s.finish reduce y) := by
  obtain ⟨s', e, hinv⟩ := MRState.inv_steps (by omega) h
  cases e
  rw [← foldl_mapped]
  exact MRState.finish_rel hred hassoc (by omega) hT hmap hinv hdone h0

/-- No interleaving fails: every reachable outcome is a normal state. -/
theorem C02_no_failure (reduce : Y → Y → Y) (map : ℤ → Y) (n : ℕ) (threads : ℕ) (r : Res (MRState Y))
    (h : MRState.Steps reduce map n threads MRState.init r) : ∃ s, r = .ok s := by
  obtain ⟨s, e, _⟩ := MRState.inv_steps (by omega) h
  exact ⟨s, e⟩

/-- No deadlock: until all threads are done some thread can move. -/
theorem C02_progress (reduce : Y → Y → Y) (map : ℤ → Y) (n : ℕ) (threads : ℕ) (s : MRState Y)
    (h : MRState.Steps reduce map n threads MRState.init (.ok s))
    (hnd : ∃ t < threads, s.pc t ≠ .done) :
    ∃ t < threads, ∃ s', s.step reduce map n threads t = some (.ok s') := by
  obtain ⟨s', e, hinv⟩ := MRState.inv_steps (by omega) h
  cases e
  obtain ⟨t, ht, r, hr⟩ := hinv.progress (by omega) hnd
  obtain ⟨s', rfl, _⟩ := hinv.step (by omega) ht hr
  exact ⟨t, ht, s', hr⟩

theorem totalRemaining_init (n threads : ℕ) (hT : 0 < threads) :
    MRState.totalRemaining n threads (MRState.init : MRState Y) = n + 5 * threads := by
  have hTpos : (0 : ℤ) < threads := by omega
  have pos : ∀ k : ℕ, 0 ≤ chunkStart n threads k := by
    intro k
    induction k with
    | zero => rw [Nat.cast_zero, chunkStart_zero hTpos]
    | succ k ih =>
      have := chunkStart_mono (n := n) (by omega) hTpos k
      push_cast; omega
  have : ∀ k : ℕ, ∑ t ∈ Finset.range k, MRState.remaining n threads t .start =
      (chunkStart n threads k).toNat + 5 * k := by
    intro k
    induction k with
    | zero => rw [Nat.cast_zero, chunkStart_zero hTpos]; simp
    | succ k ih =>
      rw [Finset.sum_range_succ, ih]
      have h1 := chunkStart_mono (n := n) (by omega) hTpos k
      have h2 := pos k
      simp only [MRState.remaining]
      push_cast
      omega
  have h := this threads
  rw [chunkStart_last hTpos] at h
  simpa [MRState.totalRemaining, MRState.init] using h

/-- No schedule runs forever: at most `n + 5 * threads` steps are taken. -/
theorem C02_terminates (reduce : Y → Y → Y) (map : ℤ → Y) (n : ℕ) (threads : ℕ)
    (f : ℕ → MRState Y) (k : ℕ) (h0 : f 0 = MRState.init)
    (hstep : ∀ j < k, ∃ t < threads, (f j).step reduce map n threads t = some (.ok (f (j + 1)))) :
    k ≤ n + 5 * threads := by
  rcases Nat.eq_zero_or_pos threads with hz | hT
  · cases k with
    | zero => omega
    | succ k => obtain ⟨t, ht, _⟩ := hstep 0 (by omega); omega
  have hinit : MRState.totalRemaining n threads (f 0) = n + 5 * threads := by
    rw [h0]; exact totalRemaining_init n threads hT
  have : ∀ j ≤ k, MRState.totalRemaining n threads (f j) + j ≤ MRState.totalRemaining n threads (f 0) := by
    intro j
    induction j with
    | zero => intro _; simp
    | succ j ih =>
      intro hj
      obtain ⟨t, ht, e⟩ := hstep j (by omega)
      have h1 := MRState.Inv.step_decreases (by omega) ht e
      have h2 := ih (by omega)
      omega
  have := this k le_rfl
  omega

/-- Run a given schedule; `none` if a scheduled thread cannot move or fails. -/
def MRState.runSchedule (reduce : Y → Y → Y) (map : ℤ → Y) (n : ℤ) (threads : ℕ) :
    List ℕ → MRState Y → Option (MRState Y)
  | [], s => some s
  | t :: l, s =>
    if t < threads then
      match s.step reduce map n threads t with
      | some (.ok s') => s'.runSchedule reduce map n threads l
      | _ => none
    else none

theorem MRState.steps_runSchedule (reduce : Y → Y → Y) (map : ℤ → Y) (n : ℤ) (threads : ℕ) (l : List ℕ)
    (s0 s s' : MRState Y) (h0 : Steps reduce map n threads s0 (.ok s))
    (h : s.runSchedule reduce map n threads l = some s') : Steps reduce map n threads s0 (.ok s') := by
  induction l generalizing s with
  | nil => cases h; exact h0
  | cons t l ih =>
    simp only [runSchedule] at h
    split_ifs at h with ht
    · split at h
      · next s1 e => exact ih s1 (h0.tail ht e) h
      · cases h

/-- C02 example: list concatenation (not commutative), three indices, two threads whose steps interleave. -/
example : ∃ s : MRState (List ℤ),
    MRState.Steps (fun a b => a ++ b) (fun i => [i]) (3 : ℕ) 2 MRState.init (.ok s) ∧
    (∀ t < 2, s.pc t = .done) ∧ s.finish (fun a b => a ++ b) [7] = [7, 0, 1, 2] := by
  have h : (MRState.init.runSchedule (fun a b : List ℤ => a ++ b) (fun i => [i]) (3 : ℕ) 2
      [1, 1, 1, 0, 1, 0, 1, 0, 0, 0, 1, 0, 0]).isSome = true := by decide
  obtain ⟨s, hs⟩ := Option.isSome_iff_exists.mp h
  refine ⟨s, MRState.steps_runSchedule _ _ _ _ _ _ _ _ (.refl _) hs, ?_, ?_⟩
  · have : (MRState.init.runSchedule (fun a b : List ℤ => a ++ b) (fun i => [i]) (3 : ℕ) 2
      [1, 1, 1, 0, 1, 0, 1, 0, 0, 0, 1, 0, 0]).map (fun s => (s.pc 0, s.pc 1)) = some (.done, .done) := by
      decide
    rw [hs] at this
    simp only [Option.map_some, Option.some.injEq, Prod.mk.injEq] at this
    intro t ht
    interval_cases t
    · exact this.1
    · exact this.2
  · have : (MRState.init.runSchedule (fun a b : List ℤ => a ++ b) (fun i => [i]) (3 : ℕ) 2
      [1, 1, 1, 0, 1, 0, 1, 0, 0, 0, 1, 0, 0]).map (fun s => s.finish (fun a b => a ++ b) [7]) =
        some [7, 0, 1, 2] := by decide
    rw [hs] at this
    simpa using this

/-! ## C03 slots of map_reduce -/

/-- In every reachable state: a thread in its loop holds a reference into the current allocation and inside
the vector; at most one thread is in the critical section; while a thread is about to reallocate the vector,
no other thread holds or is about to take a reference. -/
theorem C03_slots (reduce : Y → Y → Y) (map : ℤ → Y) (n : ℕ) (threads : ℕ) (s : MRState Y)
    (h : MRState.Steps reduce map n threads MRState.init (.ok s)) :
    (∀ t < threads, ∀ a i, s.pc t = .loop a i → a = s.alloc ∧ t < s.partials.length) ∧
    (∀ t < threads, s.pc t = .getRef → t < s.partials.length) ∧
    (∀ t < threads, ∀ u < threads, (s.pc t = .inCritical ∨ s.pc t = .leaving) →
      (s.pc u = .inCritical ∨ s.pc u = .leaving) → t = u) ∧
    (∀ t < threads, ∀ u < threads, s.pc t = .inCritical → s.partials.length ≠ threads →
      s.pc u ≠ .getRef ∧ ∀ a i, s.pc u ≠ .loop a i) := by
  obtain ⟨s', e, hinv⟩ := MRState.inv_steps (by omega) h
  cases e
  refine ⟨?_, ?_, ?_, ?_⟩
  · intro t ht a i hpc
    have h1 := hinv.ref t a i ht hpc
    have h2 := hinv.full t ht (by rw [hpc]; simp) (hinv.work t ht (by rw [hpc]; simp))
    exact ⟨h1.1, by omega⟩
  · intro t ht hpc
    have h2 := hinv.full t ht (by rw [hpc]; simp) (hinv.work t ht (by rw [hpc]; simp))
    omega
  · intro t ht u hu h1 h2
    have e1 := (hinv.lock_iff t ht).mpr h1
    have e2 := (hinv.lock_iff u hu).mpr h2
    rw [e1] at e2
    cases e2
    rfl
  · intro t ht u hu hpc hlen
    refine ⟨fun hc => hlen ?_, fun a i hc => hlen ?_⟩
    · exact hinv.full u hu (by rw [hc]; simp) (hinv.work u hu (by rw [hc]; simp))
    · exact hinv.full u hu (by rw [hc]; simp) (hinv.work u hu (by rw [hc]; simp))

/-- A step of one thread leaves the slot and the reference of every other thread in its loop alone. -/
theorem C03_no_sharing (reduce : Y → Y → Y) (map : ℤ → Y) (n : ℕ) (threads : ℕ) (s s' : MRState Y)
    (h : MRState.Steps reduce map n threads MRState.init (.ok s)) (t : ℕ) (ht : t < threads)
    (hstep : s.step reduce map n threads t = some (.ok s')) (u : ℕ) (hu : u < threads) (hut : u ≠ t)
    (a : ℕ) (i : ℤ) (hpc : s.pc u = .loop a i) :
    s'.pc u = .loop a i ∧ s'.alloc = a ∧ s'.partials[u]? = s.partials[u]? := by
  obtain ⟨s1, e, hinv⟩ := MRState.inv_steps (by omega) h
  cases e
  have href := (hinv.ref u a i hu hpc).1
  have hfull := hinv.full u hu (by rw [hpc]; simp) (hinv.work u hu (by rw [hpc]; simp))
  have hp := partitionLoop_eq (n := n) (T := threads) (t := t) (by omega) (by omega) (by omega)
  unfold MRState.step at hstep
  rw [hp] at hstep
  simp only at hstep
  cases hc : s.pc t with
  | start =>
    rw [hc] at hstep
    simp only at hstep
    split_ifs at hstep <;> cases hstep <;>
      exact ⟨by simp only [Function.update_of_ne hut]; exact hpc, href.symm, rfl⟩
  | inCritical =>
    rw [hc] at hstep
    simp only [MRState.resize_alloc threads hfull] at hstep
    cases hstep
    exact ⟨by simp only [Function.update_of_ne hut]; exact hpc, href.symm, rfl⟩
  | leaving =>
    rw [hc] at hstep
    cases hstep
    exact ⟨by simp only [Function.update_of_ne hut]; exact hpc, href.symm, rfl⟩
  | getRef =>
    rw [hc] at hstep
    simp only at hstep
    split_ifs at hstep
    · cases hstep
      exact ⟨by simp only [Function.update_of_ne hut]; exact hpc, href.symm, rfl⟩
    · simp at hstep
  | loop b j =>
    rw [hc] at hstep
    simp only at hstep
    split_ifs at hstep
    · cases hstep
      exact ⟨by simp only [Function.update_of_ne hut]; exact hpc, href.symm, by
        simp only [List.getElem?_set_ne hut.symm]⟩
    · split at hstep
      · cases hstep
        exact ⟨by simp only [Function.update_of_ne hut]; exact hpc, href.symm, by
          simp only [List.getElem?_set_ne hut.symm]⟩
      · simp at hstep
    · simp at hstep
    · cases hstep
      exact ⟨by simp only [Function.update_of_ne hut]; exact hpc, href.symm, rfl⟩
  | done =>
    rw [hc] at hstep
    cases hstep

/-- C03 example: a reachable state in which thread 1 is in its loop while thread 0 is in the critical
section. -/
example : ∃ s : MRState ℤ, MRState.Steps (fun a b => a + b) (fun i => i) (3 : ℕ) 2 MRState.init (.ok s) ∧
    s.pc 1 = .loop 1 3 ∧ s.pc 0 = .inCritical ∧ s.partials = [none, some 2] := by
  have h : (MRState.init.runSchedule (fun a b : ℤ => a + b) (fun i => i) (3 : ℕ) 2
      [1, 1, 1, 1, 0, 1]).map (fun s => (s.pc 1, s.pc 0, s.partials)) =
        some (.loop 1 3, .inCritical, [none, some 2]) := by decide
  obtain ⟨s, hs, e⟩ := Option.map_eq_some_iff.mp h
  simp only [Prod.mk.injEq] at e
  exact ⟨s, MRState.steps_runSchedule _ _ _ _ _ _ _ _ (.refl _) hs, e⟩

/-! ## C04 loop kernels -/

/-- The host loop visits `0, 1, ..., n-1` in this order. -/
theorem C04_host (n : ℕ) (h : n < 2 ^ 31) : hostLoop n = (List.range n).map (fun i : ℕ => (i : ℤ)) := by
  unfold hostLoop
  rw [toInt32_id (by omega) (by omega)]
  split_ifs with h0
  · have : n = 0 := by omega
    subst this; rfl
  · simp

/-- On the device every index of `0..n-1` is visited exactly once over all threads, for every grid shape,
and no thread's index overflows. -/
theorem C04_device (n blockDim gridDim : ℕ) (h : n + blockDim * gridDim ≤ 2 ^ 31) (hpos : 0 < blockDim * gridDim) :
    ∃ visits : ℕ → ℕ → List ℤ,
      (∀ b < gridDim, ∀ t < blockDim, deviceLoop n blockDim gridDim b t = some (visits b t)) ∧
      ((List.range gridDim).flatMap fun b => (List.range blockDim).flatMap fun t => visits b t).Perm
        ((List.range n).map fun i : ℕ => (i : ℤ)) := by
  have hB : 0 < blockDim := Nat.pos_of_mul_pos_right hpos
  have hG : 0 < gridDim := Nat.pos_of_mul_pos_left hpos
  have spec : ∀ b t : ℕ, b < gridDim → t < blockDim → ∃ l, deviceLoop n blockDim gridDim b t = some l ∧
      l.Nodup ∧ ∀ j : ℤ, j ∈ l ↔ (0 ≤ j ∧ j < n ∧ j % ((blockDim : ℤ) * gridDim) = b * blockDim + t) := by
    intro b t hb ht
    exact deviceLoop_spec (by omega) (by exact_mod_cast h) (by omega) (by omega) (by omega) (by omega)
  choose! visits hv using spec
  refine ⟨visits, fun b hb t ht => (hv b t hb ht).1, ?_⟩
  have hmem : ∀ j : ℤ, j ∈ ((List.range gridDim).flatMap fun b => (List.range blockDim).flatMap fun t =>
      visits b t) ↔ (0 ≤ j ∧ j < n) := by
    intro j
    simp only [List.mem_flatMap, List.mem_range]
    constructor
    · rintro ⟨b, hb, t, ht, hj⟩
      have := ((hv b t hb ht).2.2 j).mp hj
      exact ⟨this.1, this.2.1⟩
    · rintro ⟨h0, h1⟩
      have hS : (0 : ℤ) < (blockDim : ℤ) * gridDim := by exact_mod_cast hpos
      have hr0 := Int.emod_nonneg j hS.ne'
      have hr1 := Int.emod_lt_of_pos j hS
      obtain ⟨r, hr⟩ := Int.eq_ofNat_of_zero_le hr0
      have hr2 : r < blockDim * gridDim := by rw [hr] at hr1; exact_mod_cast hr1
      refine ⟨r / blockDim, Nat.div_lt_of_lt_mul hr2, r % blockDim, Nat.mod_lt _ hB, ?_⟩
      rw [(hv _ _ (Nat.div_lt_of_lt_mul hr2) (Nat.mod_lt _ hB)).2.2]
      refine ⟨h0, h1, ?_⟩
      rw [hr]
      have := Nat.div_add_mod' r blockDim
      exact_mod_cast this.symm
  have inj : ∀ b t b' t' : ℕ, t < blockDim → t' < blockDim →
      b * blockDim + t = b' * blockDim + t' → b = b' ∧ t = t' := by
    intro b t b' t' ht ht' e
    have h1 : (b * blockDim + t) / blockDim = b := by
      rw [Nat.add_comm, Nat.add_mul_div_right _ _ hB, Nat.div_eq_of_lt ht, Nat.zero_add]
    have h2 : (b' * blockDim + t') / blockDim = b' := by
      rw [Nat.add_comm, Nat.add_mul_div_right _ _ hB, Nat.div_eq_of_lt ht', Nat.zero_add]
    have : b = b' := by rw [← h1, ← h2, e]
    subst this
    exact ⟨rfl, by omega⟩
  refine (List.perm_ext_iff_of_nodup ?_ ?_).mpr ?_
  · rw [List.nodup_flatMap]
    constructor
    · intro b hb
      rw [List.mem_range] at hb
      rw [List.nodup_flatMap]
      constructor
      · intro t ht
        rw [List.mem_range] at ht
        exact (hv b t hb ht).2.1
      · refine List.Pairwise.imp_of_mem ?_ (List.nodup_range (n := blockDim))
        intro t t' ht ht' hne
        rw [List.mem_range] at ht ht'
        intro j hj hj'
        have e1 := ((hv b t hb ht).2.2 j).mp hj
        have e2 := ((hv b t' hb ht').2.2 j).mp hj'
        apply hne
        omega
    · refine List.Pairwise.imp_of_mem ?_ (List.nodup_range (n := gridDim))
      intro b b' hb hb' hne
      rw [List.mem_range] at hb hb'
      intro j hj hj'
      simp only [List.mem_flatMap, List.mem_range] at hj hj'
      obtain ⟨t, ht, hj⟩ := hj
      obtain ⟨t', ht', hj'⟩ := hj'
      have e1 := ((hv b t hb ht).2.2 j).mp hj
      have e2 := ((hv b' t' hb' ht').2.2 j).mp hj'
      refine hne (inj b t b' t' ht ht' ?_).1
      have : ((b * blockDim + t : ℕ) : ℤ) = ((b' * blockDim + t' : ℕ) : ℤ) := by
        push_cast; rw [← e1.2.2, ← e2.2.2]
      exact_mod_cast this
  · exact List.Nodup.map (fun a b h => by exact_mod_cast h) List.nodup_range
  · intro j
    rw [hmem]
    simp only [List.mem_map, List.mem_range]
    constructor
    · rintro ⟨h0, h1⟩
      exact ⟨j.toNat, by omega, by omega⟩
    · rintro ⟨i, hi, rfl⟩
      omega

/-- If what one iteration writes is neither read nor written by another, every interleaving of the
iterations' stores leaves the memory that the host loop leaves. -/
theorem C04_memory {A V : Type} [DecidableEq A] (n : ℕ) (hn : n < 2 ^ 31) (body : ℤ → List (Store A V))
    (hd : ∀ i j : ℤ, 0 ≤ i → i < n → 0 ≤ j → j < n → i ≠ j →
      ∀ u ∈ body i, ∀ w ∈ body j, u.cell ≠ w.cell ∧ u.cell ∉ w.reads)
    (trace : List (ℤ × Store A V)) (hrange : ∀ e ∈ trace, 0 ≤ e.1 ∧ e.1 < n)
    (hproj : ∀ i : ℤ, 0 ≤ i → i < n → (trace.filter (fun e => e.1 = i)).map Prod.snd = body i)
    (m : A → V) :
    trace.foldl (fun m e => e.2.exec m) m =
      (hostLoop n).foldl (fun m i => (body i).foldl (fun m u => u.exec m) m) m := by
  have hmem : ∀ i : ℤ, i ∈ hostLoop n ↔ 0 ≤ i ∧ i < n := by
    intro i
    rw [C04_host n hn]
    simp only [List.mem_map, List.mem_range]
    constructor
    · rintro ⟨k, hk, rfl⟩; omega
    · rintro ⟨h0, h1⟩; exact ⟨i.toNat, by omega, by omega⟩
  refine Store.runTrace_eq_seq (is := hostLoop n) ?_ ?_ ?_ ?_ m
  · rw [C04_host n hn]
    exact List.Nodup.map (fun a b h => by exact_mod_cast h) List.nodup_range
  · intro i hi j hj hij a ⟨u, hu, e⟩ ⟨w, hw, e'⟩
    have h1 := (hmem i).mp hi
    have h2 := (hmem j).mp hj
    have := hd i j h1.1 h1.2 h2.1 h2.2 hij u hu w hw
    rcases e' with e' | e'
    · exact this.1 (e.trans e'.symm)
    · exact this.2 (e ▸ e')
  · intro e he
    exact (hmem e.1).mpr (hrange e he)
  · intro i hi
    have := (hmem i).mp hi
    exact hproj i this.1 this.2

/-- C04 example: 10 iterations on a grid of 2 blocks of 3 threads. -/
example : deviceLoop 10 3 2 0 1 = some [1, 7] ∧ deviceLoop 10 3 2 1 0 = some [3, 9] := by decide

/-- C04 example: the two iterations of `x[i] = x[i] + 1`, run in the wrong order. -/
example (m : ℤ → ℤ) :
    let st (i : ℤ) : Store ℤ ℤ := ⟨i, {i}, fun m => m i + 1, fun m m' h => by rw [h i rfl]⟩
    [(1, st 1), (0, st 0)].foldl (fun m e => e.2.exec m) m =
      (hostLoop (2 : ℕ)).foldl (fun m i => ([st i]).foldl (fun m u => u.exec m) m) m := by
  intro st
  refine C04_memory 2 (by norm_num) (fun i => [st i]) ?_ [((1 : ℤ), st 1), (0, st 0)] ?_ ?_ m
  · intro i j _ _ _ _ hij u hu w hw
    rw [List.mem_singleton] at hu hw
    subst hu hw
    exact ⟨hij, hij⟩
  · intro e he
    simp only [List.mem_cons, List.not_mem_nil, or_false] at he
    rcases he with rfl | rfl <;> simp
  · intro i h0 h1
    have : i = 0 ∨ i = 1 := by push_cast at h1; omega
    rcases this with rfl | rfl <;> simp

/-- Sizes from `2^31` on are truncated to 32 bits: a loop of `2^31` iterations runs none, and one of
`2^32 + 5` iterations runs 5. -/
theorem C04_truncation_witness :
    hostLoop (2 ^ 31) = [] ∧ hostLoop (2 ^ 32 + 5) = [0, 1, 2, 3, 4] ∧
      deviceLoop (2 ^ 31) 256 32 0 0 = some [] := by
  refine ⟨by decide, by decide, by decide⟩

end Mandelbrot
