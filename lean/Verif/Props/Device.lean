import Verif.Device.Model
import Verif.Props.Loops

/-!
# Programs on a device do what they say, in the order they say it (C61)
-/

namespace Mandelbrot

open Device

variable {D X : Type}

/-! ## Specifications -/

/-- All steps of a command, one thread after the other. -/
def Spec.runCmd (c : Cmd D) (d : D) : D := c.threads.flatten.foldl (fun d f => f d) d

/-- The program as it reads: every command is executed when it is issued.  The final memory and the result. -/
def Spec.inOrder : Host D X → D → D × X
  | .done x, d => (d, x)
  | .launch c k, d => Spec.inOrder k (Spec.runCmd c d)
  | .read k, d => Spec.inOrder (k d) d
  | .sync k, d => Spec.inOrder k d

/-- Different threads of a command do not get in each other's way: their steps commute. -/
def Spec.RaceFree (c : Cmd D) : Prop := c.threads.Pairwise fun s t => ∀ f ∈ s, ∀ g ∈ t, ∀ d, f (g d) = g (f d)

/-- Every command that the program can launch. -/
def Spec.AllRaceFree : Host D X → Prop
  | .done _ => True
  | .launch c k => Spec.RaceFree c ∧ Spec.AllRaceFree k
  | .read k => ∀ d, Spec.AllRaceFree (k d)
  | .sync k => Spec.AllRaceFree k

namespace Props

/-! ## Program order -/

/-- What the program will end with if the rest happens in order. -/
def final (s : State D X) : D × X := Spec.inOrder s.host (s.pending.foldl (fun d c => Spec.runCmd c d) s.mem)

/-- All that may still happen is free of races. -/
def Calm (s : State D X) : Prop := (∀ c ∈ s.pending, Spec.RaceFree c) ∧ Spec.AllRaceFree s.host

theorem foldl_comm (f : D → D) (l : List (D → D)) (h : ∀ g ∈ l, ∀ d, f (g d) = g (f d)) (d : D) :
    f (l.foldl (fun d f => f d) d) = l.foldl (fun d f => f d) (f d) := by
  induction l generalizing d with
  | nil => rfl
  | cons g l ih =>
    rw [List.foldl_cons, List.foldl_cons, ih (fun g hg => h g (List.mem_cons_of_mem _ hg)), h g List.mem_cons_self]

theorem runCmd_step {s : Stream} {ts ts' : List (List (D → D))} {f : D → D} {t : List (D → D)}
    (h : Spec.RaceFree ⟨s, ts ++ (f :: t) :: ts'⟩) (d : D) :
    Spec.runCmd ⟨s, ts ++ (f :: t) :: ts'⟩ d = Spec.runCmd ⟨s, ts ++ t :: ts'⟩ (f d) := by
  simp only [Spec.runCmd, List.flatten_append, List.flatten_cons, List.foldl_append, List.cons_append, List.foldl_cons]
  rw [foldl_comm f]
  intro g hg d
  obtain ⟨l, hl, hg⟩ := List.mem_flatten.mp hg
  exact ((List.pairwise_append.mp h).2.2 l hl _ List.mem_cons_self g hg f List.mem_cons_self d).symm

theorem raceFree_step {s : Stream} {ts ts' : List (List (D → D))} {f : D → D} {t : List (D → D)}
    (h : Spec.RaceFree ⟨s, ts ++ (f :: t) :: ts'⟩) : Spec.RaceFree ⟨s, ts ++ t :: ts'⟩ := by
  obtain ⟨h1, h2, h3⟩ := List.pairwise_append.mp h
  obtain ⟨h4, h5⟩ := List.pairwise_cons.mp h2
  refine List.pairwise_append.mpr ⟨h1, List.pairwise_cons.mpr ⟨fun l hl g hg => h4 l hl g (List.mem_cons_of_mem _ hg), h5⟩, ?_⟩
  intro l hl l' hl' g hg g' hg'
  rcases List.mem_cons.mp hl' with rfl | hl'
  · exact h3 l hl _ List.mem_cons_self g hg g' (List.mem_cons_of_mem _ hg')
  · exact h3 l hl l' (List.mem_cons_of_mem _ hl') g hg g' hg'

/-- With the default stream ordered against the other one, a step changes neither the outcome nor the freedom of races. -/
theorem step_final {s s' : State D X} (h : Step true s s') (hc : Calm s) : Calm s' ∧ final s' = final s := by
  have hnil : ∀ {q : List (Cmd D)} {st : Stream}, (∀ c ∈ q, ordered true c.stream st = false) → q = [] := by
    intro q st hq
    cases q with
    | nil => rfl
    | cons c q => simpa [ordered] using hq c List.mem_cons_self
  obtain ⟨hc1, hc2⟩ := hc
  cases h with
  | launch =>
    refine ⟨⟨?_, hc2.2⟩, by simp [final, Spec.inOrder]⟩
    intro c hc
    rcases List.mem_append.mp hc with hc | hc
    · exact hc1 c hc
    · rw [List.mem_singleton.mp hc]; exact hc2.1
  | read h => rw [hnil h] at *; exact ⟨⟨hc1, hc2 _⟩, rfl⟩
  | sync h => exact ⟨⟨hc1, hc2⟩, rfl⟩
  | exec h =>
    rw [hnil h] at *
    refine ⟨⟨?_, hc2⟩, ?_⟩
    · intro c hc
      rcases List.mem_cons.mp hc with rfl | hc
      · exact raceFree_step (hc1 _ List.mem_cons_self)
      · exact hc1 c (List.mem_cons_of_mem _ hc)
    · simp only [final, List.nil_append, List.foldl_cons]
      rw [runCmd_step (hc1 _ List.mem_cons_self)]
  | @finish q q' c d p h he =>
    rw [hnil h] at *
    refine ⟨⟨fun c hc => hc1 c (List.mem_cons_of_mem _ hc), hc2⟩, ?_⟩
    have : c.threads.flatten = [] := List.flatten_eq_nil_iff.mpr he
    simp only [final, List.nil_append, List.foldl_cons, Spec.runCmd, this, List.foldl_nil]

theorem steps_final {s s' : State D X} (h : Steps true s s') (hc : Calm s) : Calm s' ∧ final s' = final s := by
  induction h with
  | refl => exact ⟨hc, rfl⟩
  | tail _ h ih =>
    obtain ⟨i1, i2⟩ := step_final h ih.1
    exact ⟨i1, i2.trans ih.2⟩

/-- A state in which nothing can happen is the end. -/
theorem stuck_end {s : State D X} (h : ∀ s', ¬Step true s s') : ∃ x, s = ⟨[], s.mem, .done x⟩ := by
  obtain ⟨q, d, p⟩ := s
  cases q with
  | cons c q =>
    exfalso
    by_cases he : ∀ t ∈ c.threads, t = []
    · exact h _ (Step.finish (q := []) (c := c) (q' := q) (by simp) he)
    · push Not at he
      obtain ⟨t, ht, hne⟩ := he
      obtain ⟨ts, ts', e⟩ := List.append_of_mem ht
      obtain ⟨f, t, rfl⟩ := List.exists_cons_of_ne_nil hne
      obtain ⟨st, thr⟩ := c
      simp only at e
      subst e
      exact h _ (Step.exec (q := []) (by simp))
  | nil =>
    cases p with
    | done x => exact ⟨x, rfl⟩
    | launch c k => exact (h _ Step.launch).elim
    | read k => exact (h _ (Step.read (by simp))).elim
    | sync k => exact (h _ (Step.sync (by simp))).elim

/-- C61.  Whatever the device does and when: an execution that can go no further has done what the program says, in the order in which
it says it, and no execution goes on forever (`C61_ends`). -/
theorem C61_program_order {p : Host D X} (hp : Spec.AllRaceFree p) {d : D} {s : State D X} (h : Steps true ⟨[], d, p⟩ s)
    (hend : ∀ s', ¬Step true s s') : s = ⟨[], (Spec.inOrder p d).1, .done (Spec.inOrder p d).2⟩ := by
  obtain ⟨-, h2⟩ := steps_final h ⟨by simp, hp⟩
  obtain ⟨x, hx⟩ := stuck_end hend
  rw [hx] at h2 ⊢
  have : (s.mem, x) = Spec.inOrder p d := h2
  rw [← this]

/-- What is left to do. -/
def load (q : List (Cmd D)) : ℕ := (q.map fun c => c.threads.flatten.length + 1).sum

/-- C61.  No execution goes on forever, with any kind of default stream and with races. -/
theorem C61_ends (legacy : Bool) : WellFounded fun s' s : State D X => Step legacy s s' := by
  have go : ∀ p : Host D X, (∀ c k, p = .launch c k → ∀ q d, Acc (fun s' s : State D X => Step legacy s s') ⟨q, d, k⟩) →
      (∀ k, p = .read k → ∀ q d, Acc (fun s' s : State D X => Step legacy s s') ⟨q, d, k d⟩) →
      (∀ k, p = .sync k → ∀ q d, Acc (fun s' s : State D X => Step legacy s s') ⟨q, d, k⟩) →
      ∀ q d, Acc (fun s' s : State D X => Step legacy s s') ⟨q, d, p⟩ := by
    intro p h1 h2 h3 q
    induction hl : load q using Nat.strong_induction_on generalizing q with
    | _ l ih =>
      intro d
      refine ⟨_, fun s' h => ?_⟩
      cases h with
      | launch => exact h1 _ _ rfl _ _
      | read h => exact h2 _ rfl _ _
      | sync h => exact h3 _ rfl _ _
      | exec h => exact ih _ (by rw [← hl]; simp [load]) _ rfl _
      | finish h he => exact ih _ (by rw [← hl]; simp [load]) _ rfl _
  refine ⟨fun ⟨q, d, p⟩ => ?_⟩
  induction p generalizing q d with
  | done x => exact go _ (fun _ _ h => by cases h) (fun _ h => by cases h) (fun _ h => by cases h) q d
  | launch c k ih => exact go _ (fun _ _ h => by cases h; exact ih) (fun _ h => by cases h) (fun _ h => by cases h) q d
  | read k ih => exact go _ (fun _ _ h => by cases h) (fun _ h => by cases h; exact fun q d => ih d q d) (fun _ h => by cases h) q d
  | sync k ih => exact go _ (fun _ _ h => by cases h) (fun _ h => by cases h) (fun _ h => by cases h; exact ih) q d

/-- C61.  The end is reached: there is an execution, and by `C61_program_order` they all end there. -/
theorem C61_reaches {p : Host D X} (hp : Spec.AllRaceFree p) (d : D) :
    Steps true ⟨[], d, p⟩ ⟨[], (Spec.inOrder p d).1, .done (Spec.inOrder p d).2⟩ := by
  have key : ∀ s : State D X, ∃ s', Steps true s s' ∧ ∀ s'', ¬Step true s' s'' := by
    intro s
    induction s using (C61_ends (D := D) (X := X) true).induction with
    | _ s ih =>
      by_cases h : ∃ s', Step true s s'
      · obtain ⟨s', h⟩ := h
        obtain ⟨s'', h1, h2⟩ := ih s' h
        exact ⟨s'', Relation.ReflTransGen.head h h1, h2⟩
      · exact ⟨s, .refl, fun s' hs => h ⟨s', hs⟩⟩
  obtain ⟨s', h1, h2⟩ := key ⟨[], d, p⟩
  rw [C61_program_order hp h1 h2] at h1
  exact h1

/-! ## Loops -/

/-- All accesses of a loop in the order of the host. -/
def Spec.hostRun (n : ℕ) (body : ℕ → List (D → D)) (d : D) : D :=
  (List.range n).foldl (fun d i => (body i).foldl (fun d f => f d) d) d

theorem foldl_flatMap {ι : Type} (l : List ι) (body : ι → List (D → D)) (d : D) :
    (l.flatMap body).foldl (fun d f => f d) d = l.foldl (fun d i => (body i).foldl (fun d f => f d) d) d := by
  induction l generalizing d with
  | nil => rfl
  | cons i l ih => rw [List.flatMap_cons, List.foldl_append, ih, List.foldl_cons]

theorem foldl_foldl_comm (l l' : List (D → D)) (h : ∀ f ∈ l, ∀ g ∈ l', ∀ d, f (g d) = g (f d)) (d : D) :
    l'.foldl (fun d f => f d) (l.foldl (fun d f => f d) d) = l.foldl (fun d f => f d) (l'.foldl (fun d f => f d) d) := by
  induction l generalizing d with
  | nil => rfl
  | cons f l ih =>
    rw [List.foldl_cons, List.foldl_cons, ih (fun f hf => h f (List.mem_cons_of_mem _ hf)), foldl_comm f l' (h f List.mem_cons_self)]

/-- C61.  A loop on a grid of any shape: if the steps of different iterations commute, the kernel is free of races and does what the loop on
the host does. -/
theorem C61_loop {n blockDim gridDim : ℕ} (h : n + blockDim * gridDim ≤ 2 ^ 31) (hpos : 0 < blockDim * gridDim)
    {body : ℕ → List (D → D)} (hb : ∀ i < n, ∀ j < n, i ≠ j → ∀ f ∈ body i, ∀ g ∈ body j, ∀ d, f (g d) = g (f d)) :
    ∃ c, grid n blockDim gridDim body = .ok c ∧ c.stream = .default ∧ Spec.RaceFree c ∧
      ∀ d, Spec.runCmd c d = Spec.hostRun n body d := by
  obtain ⟨visits, h1, h2⟩ := C04_device n blockDim gridDim h hpos
  set bts := (List.range gridDim).flatMap fun b => (List.range blockDim).map fun t => (b, t) with hbts
  have hmem : ∀ bt ∈ bts, bt.1 < gridDim ∧ bt.2 < blockDim := by
    intro bt hbt
    simp only [hbts, List.mem_flatMap, List.mem_range, List.mem_map] at hbt
    obtain ⟨b, hb, t, ht, rfl⟩ := hbt
    exact ⟨hb, ht⟩
  have hflat : (bts.flatMap fun bt => visits bt.1 bt.2) =
      (List.range gridDim).flatMap fun b => (List.range blockDim).flatMap fun t => visits b t := by
    rw [hbts, List.flatMap_assoc]
    simp only [List.flatMap_map]
  have hM : ∀ l : List (ℕ × ℕ), (∀ bt ∈ l, bt.1 < gridDim ∧ bt.2 < blockDim) →
      l.mapM (fun bt : ℕ × ℕ => match deviceLoop n blockDim gridDim bt.1 bt.2 with
        | some l => (.ok (l.flatMap fun i : ℤ => body i.toNat) : Res (List (D → D)))
        | none => .error .ub) = .ok (l.map fun bt : ℕ × ℕ => (visits bt.1 bt.2).flatMap fun i : ℤ => body i.toNat) := by
    intro l hl
    induction l with
    | nil => rfl
    | cons bt l ih =>
      rw [List.mapM_cons, h1 _ (hl bt List.mem_cons_self).1 _ (hl bt List.mem_cons_self).2, ih fun x hx => hl x (List.mem_cons_of_mem _ hx)]
      rfl
  refine ⟨⟨.default, bts.map fun bt => (visits bt.1 bt.2).flatMap fun i => body i.toNat⟩, ?_, rfl, ?_, fun d => ?_⟩
  · exact congrArg (fun r : Res (List (List (D → D))) => r >>= fun threads => (pure ⟨.default, threads⟩ : Res (Cmd D))) (hM bts hmem)
  · -- different threads have different iterations
    rw [← hflat] at h2
    have hnd : (bts.flatMap fun bt => visits bt.1 bt.2).Nodup :=
      h2.nodup_iff.mpr (List.nodup_range.map fun a b hab => by exact_mod_cast hab)
    have hin : ∀ bt ∈ bts, ∀ i ∈ visits bt.1 bt.2, i.toNat < n ∧ (i.toNat : ℤ) = i := by
      intro bt hbt i hi
      have := h2.mem_iff.mp (List.mem_flatMap.mpr ⟨bt, hbt, hi⟩)
      obtain ⟨k, hk, rfl⟩ := List.mem_map.mp this
      exact ⟨by simpa using hk, by simp⟩
    have hdis := (List.nodup_flatMap.mp hnd).2
    rw [Spec.RaceFree, List.pairwise_map]
    refine hdis.imp_of_mem fun {s t} hs ht hst f hf g hg d => ?_
    obtain ⟨i, hi, hf⟩ := List.mem_flatMap.mp hf
    obtain ⟨j, hj, hg⟩ := List.mem_flatMap.mp hg
    obtain ⟨i1, i2⟩ := hin s hs i hi
    obtain ⟨j1, j2⟩ := hin t ht j hj
    refine hb _ i1 _ j1 (fun e => ?_) f hf g hg d
    have : i = j := by rw [← i2, ← j2, e]
    exact hst hi (this ▸ hj)
  · have e : (bts.map fun bt => (visits bt.1 bt.2).flatMap fun i => body i.toNat).flatten =
        ((List.range gridDim).flatMap fun b => (List.range blockDim).flatMap fun t => visits b t).flatMap fun i => body i.toNat := by
      rw [← hflat, List.flatMap_assoc]; rfl
    rw [Spec.runCmd, Spec.hostRun, e, foldl_flatMap, h2.foldl_eq' ?_, List.foldl_map]
    · rfl
    · intro i hi j hj d
      obtain ⟨i, hi', rfl⟩ := List.mem_map.mp (h2.mem_iff.mp hi)
      obtain ⟨j, hj', rfl⟩ := List.mem_map.mp (h2.mem_iff.mp hj)
      rw [List.mem_range] at hi' hj'
      simp only [Int.toNat_natCast]
      by_cases hij : i = j
      · rw [hij]
      · exact foldl_foldl_comm _ _ (hb i hi' j hj' hij) d

/-! ## Memory accesses -/

section Accesses

variable {A V : Type} [DecidableEq A]

/-- The cell of an access. -/
def Spec.addr : Access A V → A
  | .load _ a => a
  | .store a _ => a

/-- No cell that an iteration stores is accessed by another iteration. -/
def Spec.NoRaces (n : ℕ) (body : ℕ → List (Access A V)) : Prop :=
  ∀ i < n, ∀ j < n, i ≠ j → ∀ a v, Access.store a v ∈ body i → ∀ c ∈ body j, Spec.addr c ≠ a

theorem access_comm {i j : ℕ} (hij : i ≠ j) {c c' : Access A V} (h1 : ∀ a v, c = .store a v → Spec.addr c' ≠ a)
    (h2 : ∀ a v, c' = .store a v → Spec.addr c ≠ a) (m : Mem A V) : c.step i (c'.step j m) = c'.step j (c.step i m) := by
  cases c with
  | load r a =>
    cases c' with
    | load r' a' =>
      simp only [Access.step, Function.update_of_ne hij, Function.update_of_ne hij.symm]
      rw [Function.update_comm hij]
    | store a' v =>
      have h := h2 a' v rfl
      simp only [Spec.addr] at h
      simp only [Access.step, Function.update_of_ne h, Function.update_of_ne hij.symm]
  | store a v =>
    cases c' with
    | load r' a' =>
      have h := h1 a v rfl
      simp only [Spec.addr] at h
      simp only [Access.step, Function.update_of_ne h, Function.update_of_ne hij]
    | store a' v' =>
      have h := h1 a v rfl
      simp only [Spec.addr] at h
      simp only [Access.step, Function.update_comm h.symm]

/-- The accesses of an iteration, one after the other. -/
def Spec.accesses (i : ℕ) (body : List (Access A V)) (m : Mem A V) : Mem A V := body.foldl (fun m c => c.step i m) m

/-- C61.  A loop whose iterations keep out of each other's way, on a grid of any shape, with the accesses of all threads interleaved in any
way: each iteration has the effect on the memory that it has alone, as if they happened in the order of the host. -/
theorem C61_kernel {n blockDim gridDim : ℕ} (h : n + blockDim * gridDim ≤ 2 ^ 31) (hpos : 0 < blockDim * gridDim)
    {body : ℕ → List (Access A V)} (hb : Spec.NoRaces n body) :
    ∃ c, gridAccess n blockDim gridDim body = .ok c ∧ c.stream = .default ∧ Spec.RaceFree c ∧
      ∀ m, Spec.runCmd c m = (List.range n).foldl (fun m i => Spec.accesses i (body i) m) m := by
  have hcomm : ∀ i < n, ∀ j < n, i ≠ j → ∀ f ∈ (body i).map (Access.step i), ∀ g ∈ (body j).map (Access.step j), ∀ m,
      f (g m) = g (f m) := by
    intro i hi j hj hij f hf g hg m
    obtain ⟨c, hc, rfl⟩ := List.mem_map.mp hf
    obtain ⟨c', hc', rfl⟩ := List.mem_map.mp hg
    exact access_comm hij (fun a v e => hb i hi j hj hij a v (e ▸ hc) c' hc') (fun a v e => hb j hj i hi hij.symm a v (e ▸ hc') c hc) m
  obtain ⟨c, h1, h2, h3, h4⟩ := C61_loop (body := fun i => (body i).map (Access.step i)) h hpos hcomm
  refine ⟨c, h1, h2, h3, fun m => ?_⟩
  rw [h4, Spec.hostRun]
  simp only [List.foldl_map, Spec.accesses]

end Accesses

/-! ## What the conditions are for -/

theorem end_stuck {legacy : Bool} {d : D} {x : X} (s' : State D X) : ¬Step legacy ⟨[], d, .done x⟩ s' := by
  intro h
  generalize e : (⟨[], d, .done x⟩ : State D X) = s at h
  cases h <;> simp at e

/-- C61.  If the default stream is not ordered against the stream of the program (compiled with a default stream for each thread), the program
"a kernel in its own stream stores 1, a loop on the grid doubles it" can end with 1 in place of 2. -/
theorem C61_stream_witness : ∃ p : Host (Mem Unit ℕ) Unit, ∃ c, Spec.AllRaceFree p ∧
    gridAccess 1 1 1 (fun _ => [Access.load 0 (), .store () fun r => 2 * r 0]) = .ok c ∧
    p = .launch (serial [Access.step 0 (.store () fun _ => 1)]) (.launch c (.done ())) ∧
    (∀ m, (Spec.inOrder p m).1.cell () = 2) ∧
    ∀ m : Mem Unit ℕ, m.cell () = 0 → ∃ s, Steps false ⟨[], m, p⟩ s ∧ (∀ s', ¬Step false s s') ∧ s.mem.cell () = 1 := by
  refine ⟨.launch (serial [Access.step 0 (.store () fun _ => 1)]) (.launch ⟨.default, [[Access.step 0 (.load 0 ()),
    Access.step 0 (.store () fun r => 2 * r 0)]]⟩ (.done ())), _, ⟨?_, ?_, trivial⟩, rfl, rfl, fun m => ?_, fun m hm => ?_⟩
  · simp [serial, Spec.RaceFree]
  · simp [Spec.RaceFree]
  · simp [Spec.inOrder, Spec.runCmd, serial, Access.step]
  · have e0 : ∀ c ∈ [(serial [Access.step 0 (.store () fun _ => 1)] : Cmd (Mem Unit ℕ))], ordered false c.stream .default = false := by
      simp [serial, ordered]
    refine ⟨⟨[], Access.step 0 (.store () fun _ => 1) (Access.step 0 (.store () fun r => 2 * r 0) (Access.step 0 (.load 0 ()) m)), .done ()⟩,
      ?_, end_stuck, by simp [Access.step]⟩
    refine .head .launch (.head .launch ?_)
    refine .head (Step.exec (q := [serial [Access.step 0 (.store () fun _ => 1)]]) (ts := []) (ts' := []) (q' := []) e0) ?_
    refine .head (Step.exec (q := [serial [Access.step 0 (.store () fun _ => 1)]]) (ts := []) (ts' := []) (q' := []) e0) ?_
    refine .head (Step.finish (q := [serial [Access.step 0 (.store () fun _ => 1)]]) (q' := []) e0 (by simp)) ?_
    refine .head (Step.exec (q := []) (ts := []) (ts' := []) (q' := []) (by simp)) ?_
    exact .head (Step.finish (q := []) (q' := []) (by simp) (by simp)) .refl

/-- C61.  Iterations that get in each other's way: `y[i] = y[i+1]` for `i < 2` on two threads can end with `2, 2` or with `1, 2`
from `0, 1, 2`. -/
theorem C61_race_witness : ∃ c, gridAccess 2 1 2 (fun i => [Access.load 0 (i + 1), .store i fun r => r 0]) = .ok c ∧
    ∀ m : Mem ℕ ℕ, m.cell = id → (∃ s : State (Mem ℕ ℕ) Unit, Steps true ⟨[], m, .launch c (.done ())⟩ s ∧ (∀ s', ¬Step true s s') ∧
        s.mem.cell 0 = 1 ∧ s.mem.cell 1 = 2) ∧
      ∃ s : State (Mem ℕ ℕ) Unit, Steps true ⟨[], m, .launch c (.done ())⟩ s ∧ (∀ s', ¬Step true s s') ∧
        s.mem.cell 0 = 2 ∧ s.mem.cell 1 = 2 := by
  refine ⟨⟨.default, [[Access.step 0 (.load 0 1), Access.step 0 (.store 0 fun r => r 0)], [Access.step 1 (.load 0 2),
    Access.step 1 (.store 1 fun r => r 0)]]⟩, rfl, fun m hm => ⟨?_, ?_⟩⟩
  · refine ⟨⟨[], Access.step 1 (.store 1 fun r => r 0) (Access.step 1 (.load 0 2) (Access.step 0 (.store 0 fun r => r 0)
      (Access.step 0 (.load 0 1) m))), .done ()⟩, ?_, end_stuck, by simp [Access.step, hm], by simp [Access.step, hm]⟩
    refine .head .launch ?_
    refine .head (Step.exec (q := []) (ts := []) (ts' := [_]) (q' := []) (by simp)) ?_
    refine .head (Step.exec (q := []) (ts := []) (ts' := [_]) (q' := []) (by simp)) ?_
    refine .head (Step.exec (q := []) (ts := [_]) (ts' := []) (q' := []) (by simp)) ?_
    refine .head (Step.exec (q := []) (ts := [_]) (ts' := []) (q' := []) (by simp)) ?_
    exact .head (Step.finish (q := []) (q' := []) (by simp) (by simp)) .refl
  · refine ⟨⟨[], Access.step 0 (.store 0 fun r => r 0) (Access.step 0 (.load 0 1) (Access.step 1 (.store 1 fun r => r 0)
      (Access.step 1 (.load 0 2) m))), .done ()⟩, ?_, end_stuck, by simp [Access.step, hm], by simp [Access.step, hm]⟩
    refine .head .launch ?_
    refine .head (Step.exec (q := []) (ts := [_]) (ts' := []) (q' := []) (by simp)) ?_
    refine .head (Step.exec (q := []) (ts := [_]) (ts' := []) (q' := []) (by simp)) ?_
    refine .head (Step.exec (q := []) (ts := []) (ts' := [_]) (q' := []) (by simp)) ?_
    refine .head (Step.exec (q := []) (ts := []) (ts' := [_]) (q' := []) (by simp)) ?_
    exact .head (Step.finish (q := []) (q' := []) (by simp) (by simp)) .refl

/-! ## Instances -/

/-- A loop over ten cells on two blocks of three threads, `y[i] = y[i] + i`. -/
example : ∃ c, gridAccess 10 3 2 (fun i => [Access.load 0 i, .store i fun r => r 0 + i]) = .ok c ∧ Spec.RaceFree c ∧
    ∀ m : Mem ℕ ℕ, (Spec.runCmd c m).cell 9 = m.cell 9 + 9 := by
  obtain ⟨c, h1, -, h2, h3⟩ := C61_kernel (n := 10) (blockDim := 3) (gridDim := 2) (by norm_num) (by norm_num)
    (body := fun i => [(Access.load 0 i : Access ℕ ℕ), .store i fun r => r 0 + i]) (by
      intro i _ j _ hij a v h c hc
      simp only [List.mem_cons, reduceCtorEq, List.not_mem_nil, or_false, false_or] at h hc
      cases h
      rcases hc with rfl | rfl <;> exact hij.symm)
  refine ⟨c, h1, h2, fun m => ?_⟩
  rw [h3]
  simp [List.range_succ, Spec.accesses, Access.step]

/-- A kernel in its own stream, a loop, and the host reading the result: the host always sees 2. -/
example (m : Mem Unit ℕ) (s : State (Mem Unit ℕ) ℕ)
    (h : Steps true ⟨[], m, .launch (serial [Access.step 0 (.store () fun _ => 1)]) (.launch ⟨.default, [[Access.step 0 (.load 0 ()),
      Access.step 0 (.store () fun r => 2 * r 0)]]⟩ (.read fun m => .done (m.cell ())))⟩ s) (hend : ∀ s', ¬Step true s s') :
    s.host = .done 2 := by
  rw [C61_program_order (by simp [Spec.AllRaceFree, Spec.RaceFree, serial]) h hend]
  simp [Spec.inOrder, Spec.runCmd, serial, Access.step]

end Props

end Mandelbrot
