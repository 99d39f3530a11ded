import Verif.Spec.Harness

/-!
# C66: the verdict of the test programs
-/

namespace Mandelbrot.Props

open Harness Harness.Spec

variable {σ : Type}

/-- The lines about one test. -/
def harnessPiece (name : Str) (out : List Str) (r : End) (e : ℤ) : List Line :=
  [.run name] ++ out.map .user ++ (match r with
    | .ok => [Line.okay name e]
    | .exc n w => [.exception n w, .failed name e]
    | _ => [.failed name e])

theorem harness_user {α : Type} (o : List Str) (f : Line → Option α) (hf : ∀ x, f (.user x) = none) :
    (o.map Line.user).filterMap f = [] := by
  rw [List.filterMap_eq_nil_iff]
  intro a ha
  obtain ⟨x, -, rfl⟩ := List.mem_map.mp ha
  exact hf x

theorem harness_piece (name : Str) (out : List Str) (r : End) (e : ℤ) (body : List Line) :
    started (harnessPiece name out r e ++ body) = name :: started body ∧
    skipped (harnessPiece name out r e ++ body) = skipped body ∧
    failures (harnessPiece name out r e ++ body) = failures body ∧
    numbers (harnessPiece name out r e ++ body) = numbers body ∧
    okays (harnessPiece name out r e ++ body) = (if r = .ok then [name] else []) ++ okays body ∧
    faileds (harnessPiece name out r e ++ body) = (if r = .ok then [] else [name]) ++ faileds body := by
  unfold harnessPiece started skipped failures numbers okays faileds
  refine ⟨?_, ?_, ?_, ?_, ?_, ?_⟩ <;>
    rw [List.append_assoc, List.append_assoc, List.filterMap_append, List.filterMap_append, harness_user _ _ (fun _ => rfl)] <;>
    cases r <;> simp

theorem namesWith_cons (p : End → Bool) (t : Test σ) (ts : List (Test σ)) (r : End) (ends : List End) :
    namesWith p (t :: ts) (r :: ends) = (if p r then [t.name] else []) ++ namesWith p ts ends := by
  by_cases h : p r <;> simp [namesWith, h]

/-- What the loop does: invariant over all tests left. -/
theorem harness_loop (skip : Str → Bool) (ms : Str → σ → ℤ) (ts : List (Test σ)) (l : Loop σ) :
    (∃ ends s', Runs (ts.filter fun t => !skip t.name) l.state ends s' ∧
      ∃ body total, runLoop skip ms ts l =
        (⟨s', l.out ++ body, l.passed + (ends.filter (· = .ok)).length,
          l.bad ++ namesWith (· ≠ .ok) (ts.filter fun t => !skip t.name) ends, total⟩, true) ∧
      started body = (ts.filter fun t => !skip t.name).map (·.name) ∧
      skipped body = [] ∧ failures body = [] ∧ numbers body = [] ∧
      okays body = namesWith (· = .ok) (ts.filter fun t => !skip t.name) ends ∧
      faileds body = namesWith (· ≠ .ok) (ts.filter fun t => !skip t.name) ends) ∨
    ∃ pre t post ends s' s'' out, (ts.filter fun t => !skip t.name) = pre ++ t :: post ∧ Runs pre l.state ends s' ∧
      t.code s' = (s'', out, .foreign) ∧ ∃ body l', runLoop skip ms ts l = (l', false) ∧ l'.state = s'' ∧ l'.out = l.out ++ body ∧
      started body = (pre ++ [t]).map (·.name) ∧ numbers body = [] := by
  induction ts generalizing l with
  | nil =>
    left
    exact ⟨[], l.state, .nil _, [], l.total, by simp [runLoop, namesWith], rfl, rfl, rfl, rfl, rfl, rfl⟩
  | cons t ts ih =>
    by_cases hs : skip t.name = true
    · have h1 : (t :: ts).filter (fun t => !skip t.name) = ts.filter fun t => !skip t.name := by simp [hs]
      have h2 : runLoop skip ms (t :: ts) l = runLoop skip ms ts l := by simp [runLoop, hs]
      rw [h1, h2]
      exact ih l
    · have h1 : (t :: ts).filter (fun t => !skip t.name) = t :: ts.filter fun t => !skip t.name := by simp [hs]
      rw [h1]
      rcases ht : t.code l.state with ⟨s1, out, r⟩
      by_cases hr : r = .foreign
      · subst hr
        right
        refine ⟨[], t, _, [], l.state, s1, out, rfl, .nil _, ht, .run t.name :: out.map .user, ⟨s1, l.out ++ [.run t.name] ++ out.map .user, l.passed, l.bad, l.total⟩, ?_, rfl, ?_, ?_, ?_⟩
        · simp [runLoop, hs, runOne, ht]
        · simp
        · simp [started]
        · simp [numbers]
      · -- the test ends in a way that is caught
        have hrun : runOne ms l t = (⟨s1, l.out ++ harnessPiece t.name out r (ms t.name l.state),
            l.passed + (if r = .ok then 1 else 0), l.bad ++ (if r = .ok then [] else [t.name]), l.total + ms t.name l.state⟩, true) := by
          clear ih
          cases r with
          | foreign => exact absurd rfl hr
          | ok => simp [runOne, ht, harnessPiece]
          | testError => simp [runOne, ht, harnessPiece]
          | exc n w => simp [runOne, ht, harnessPiece]
        have h2 : runLoop skip ms (t :: ts) l = runLoop skip ms ts (runOne ms l t).1 := by
          simp [runLoop, hs, hrun]
        rw [h2, hrun]
        rcases ih ⟨s1, l.out ++ harnessPiece t.name out r (ms t.name l.state), l.passed + (if r = .ok then 1 else 0),
              l.bad ++ (if r = .ok then [] else [t.name]), l.total + ms t.name l.state⟩ with
          ⟨ends, s', hR, body, total, he, a1, a2, a3, a4, a5, a6⟩ |
          ⟨pre, t', post, ends, s', s'', out', hp, hR, hc, body, l', he, b1, b2, b3, b4⟩
        · left
          obtain ⟨c1, c2, c3, c4, c5, c6⟩ := harness_piece t.name out r (ms t.name l.state) body
          refine ⟨r :: ends, s', .cons ht hr hR, harnessPiece t.name out r (ms t.name l.state) ++ body, total, ?_, ?_, ?_, ?_, ?_, ?_, ?_⟩
          · rw [he, namesWith_cons]
            by_cases hk : r = .ok
            · simp [hk, List.append_assoc]
              omega
            · simp [hk, List.append_assoc]
          · rw [c1, a1]; rfl
          · rw [c2, a2]
          · rw [c3, a3]
          · rw [c4, a4]
          · rw [c5, a5, namesWith_cons]
            simp
          · rw [c6, a6, namesWith_cons]
            by_cases hk : r = .ok <;> simp [hk]
        · right
          obtain ⟨c1, c2, c3, c4, c5, c6⟩ := harness_piece t.name out r (ms t.name l.state) body
          refine ⟨t :: pre, t', post, r :: ends, s', s'', out', by rw [hp]; rfl, .cons ht hr hR, hc,
            harnessPiece t.name out r (ms t.name l.state) ++ body, l', he, b1, ?_, ?_, ?_⟩
          · rw [b2]; simp [List.append_assoc]
          · rw [c1, b3]; rfl
          · rw [c4, b4]

theorem selected_eq (tests : List (Test σ)) (chosen : List Str) :
    (tests.filter fun t => !(!chosen.isEmpty && !chosen.contains t.name)) = selected tests chosen := by
  unfold selected
  congr 1
  funext t
  cases chosen <;> simp

theorem runs_names {ts : List (Test σ)} {s s' : σ} {ends : List End} (h : Runs ts s ends s') (p : End → Bool) :
    (namesWith p ts ends).length = (ends.filter p).length := by
  induction h with
  | nil => rfl
  | cons _ _ _ ih =>
    rw [namesWith_cons, List.length_append, ih, List.filter_cons]
    split <;> simp [Nat.add_comm]

/-- The lines before the tests. -/
theorem harness_head (prog : Str) (n : ℕ) (sk : List (Test σ)) (rest : List Line) :
    started (Line.header prog n :: (sk.map fun t => Line.skip t.name) ++ rest) = started rest ∧
    skipped (Line.header prog n :: (sk.map fun t => Line.skip t.name) ++ rest) = sk.map (·.name) ++ skipped rest ∧
    okays (Line.header prog n :: (sk.map fun t => Line.skip t.name) ++ rest) = okays rest ∧
    faileds (Line.header prog n :: (sk.map fun t => Line.skip t.name) ++ rest) = faileds rest ∧
    failures (Line.header prog n :: (sk.map fun t => Line.skip t.name) ++ rest) = failures rest ∧
    numbers (Line.header prog n :: (sk.map fun t => Line.skip t.name) ++ rest) = numbers rest := by
  unfold started skipped failures numbers okays faileds
  induction sk with
  | nil => simp
  | cons t sk ih => simp_all

/-- The lines after the tests. -/
theorem harness_tail (body : List Line) (n p : ℕ) (ms : ℤ) (bad : List Str) :
    let tail := body ++ ([Line.ran n ms, .passed p] ++ (if bad.isEmpty then [] else Line.failures bad.length :: bad.map .failure))
    started tail = started body ∧ skipped tail = skipped body ∧ okays tail = okays body ∧ faileds tail = faileds body ∧
    failures tail = failures body ++ bad ∧ numbers tail = numbers body ++ n :: p :: if bad = [] then [] else [bad.length] := by
  have h0 : ∀ {α : Type} (f : Line → Option α), (∀ x, f (.failure x) = none) → (bad.map Line.failure).filterMap f = [] := by
    intro α f hf
    rw [List.filterMap_eq_nil_iff]
    intro a ha
    obtain ⟨x, -, rfl⟩ := List.mem_map.mp ha
    exact hf x
  have h1 : ∀ f : Line → Option Str, (∀ x, f (.failure x) = some x) → (bad.map Line.failure).filterMap f = bad := by
    intro f hf
    rw [List.filterMap_map, show f ∘ Line.failure = some from funext hf]
    exact List.filterMap_some
  unfold started skipped failures numbers okays faileds
  cases bad with
  | nil => simp
  | cons b bad =>
    simp only [List.isEmpty_cons, Bool.false_eq_true, if_false, List.filterMap_append, List.filterMap_cons, List.filterMap_nil,
      reduceCtorEq]
    refine ⟨?_, ?_, ?_, ?_, ?_, ?_⟩
    · rw [h0 _ (fun _ => rfl)]; simp
    · rw [h0 _ (fun _ => rfl)]; simp
    · rw [h0 _ (fun _ => rfl)]; simp
    · rw [h0 _ (fun _ => rfl)]; simp
    · rw [h1 _ (fun _ => rfl)]; simp
    · rw [h0 _ (fun _ => rfl)]; simp

/-! ## The verdict -/

/-- C66.  Unless a test throws something that is no `std::exception`, the tests selected are run, each of them once, in the order of
registration, whatever happened in those before; then the shutdown hooks.  The exit code is 0 if all of them returned and 1 otherwise.
The output names as started exactly the tests selected, as skipped exactly the others, as passed and failed those that did, and the
summary has the right numbers and names. -/
theorem C66_verdict (tests : List (Test σ)) (shutdown : σ → σ) (ms : Str → σ → ℤ) (prog : Str) (names : List Str) (s : σ) :
    (∃ ends s', Runs (selected tests names) s ends s' ∧ ∃ out,
      main tests shutdown ms (prog :: names) s = (shutdown s', out, .code (if ∀ e ∈ ends, e = .ok then 0 else 1)) ∧
      started out = (selected tests names).map (·.name) ∧
      skipped out = (tests.filter fun t => decide (names ≠ [] ∧ t.name ∉ names)).map (·.name) ∧
      okays out = namesWith (· = .ok) (selected tests names) ends ∧
      faileds out = namesWith (· ≠ .ok) (selected tests names) ends ∧
      failures out = namesWith (· ≠ .ok) (selected tests names) ends ∧
      numbers out = tests.length :: (ends.filter (· = .ok)).length ::
        if ∀ e ∈ ends, e = .ok then [] else [(ends.filter (· ≠ .ok)).length]) ∨
    ∃ pre t post ends s' s'' out out', selected tests names = pre ++ t :: post ∧ Runs pre s ends s' ∧
      t.code s' = (s'', out, .foreign) ∧ main tests shutdown ms (prog :: names) s = (s'', out', .terminate) ∧
      started out' = (pre ++ [t]).map (·.name) ∧ numbers out' = [] := by
  have hsk : (tests.filter fun t => !names.isEmpty && !names.contains t.name) =
      tests.filter fun t => decide (names ≠ [] ∧ t.name ∉ names) := by
    congr 1
    funext t
    cases names <;> simp
  have hl := harness_loop (fun name => !names.isEmpty && !names.contains name) ms tests
    ⟨s, Line.header prog tests.length :: ((tests.filter fun t => !names.isEmpty && !names.contains t.name).map
      fun t => .skip t.name), 0, [], 0⟩
  rw [selected_eq, hsk] at hl
  have hm : main tests shutdown ms (prog :: names) s = match runLoop (fun name => !names.isEmpty && !names.contains name) ms tests
        ⟨s, Line.header prog tests.length :: ((tests.filter fun t => decide (names ≠ [] ∧ t.name ∉ names)).map
          fun t => .skip t.name), 0, [], 0⟩ with
      | (l, false) => (l.state, l.out, .terminate)
      | (l, true) => (shutdown l.state, l.out ++ [.ran tests.length l.total, .passed l.passed] ++
        (if l.bad.isEmpty then [] else .failures l.bad.length :: l.bad.map .failure), .code (if l.bad.isEmpty then 0 else 1)) := by
    rw [← hsk]
    rfl
  rcases hl with ⟨ends, s', hR, body, total, he, a1, a2, a3, a4, a5, a6⟩ |
    ⟨pre, t, post, ends, s', s'', out, hp, hR, hc, body, l', he, b1, b2, b3, b4⟩
  · left
    refine ⟨ends, s', hR, ?_⟩
    rw [he] at hm
    simp only [List.nil_append, Nat.zero_add] at hm
    have hbad : namesWith (· ≠ .ok) (selected tests names) ends = [] ↔ ∀ e ∈ ends, e = .ok := by
      rw [← List.length_eq_zero_iff, runs_names hR, List.length_eq_zero_iff, List.filter_eq_nil_iff]
      simp
    rw [hm]
    refine ⟨_, Prod.ext rfl (Prod.ext rfl ?_), ?_⟩
    · simp only [List.isEmpty_iff]
      congr 1
      exact if_congr hbad rfl rfl
    · rw [List.append_assoc, List.append_assoc]
      obtain ⟨c1, c2, c3, c4, c5, c6⟩ := harness_head prog tests.length (tests.filter fun t => decide (names ≠ [] ∧ t.name ∉ names))
        (body ++ ([Line.ran tests.length total, .passed (ends.filter (· = .ok)).length] ++
          (if (namesWith (· ≠ .ok) (selected tests names) ends).isEmpty then [] else
            Line.failures (namesWith (· ≠ .ok) (selected tests names) ends).length ::
              (namesWith (· ≠ .ok) (selected tests names) ends).map .failure)))
      obtain ⟨d1, d2, d3, d4, d5, d6⟩ := harness_tail body tests.length (ends.filter (· = .ok)).length total
        (namesWith (· ≠ .ok) (selected tests names) ends)
      refine ⟨c1.trans (d1.trans a1), ?_, c3.trans (d3.trans a5), c4.trans (d4.trans a6), ?_, ?_⟩
      · rw [c2, d2, a2, List.append_nil]
      · rw [c5, d5, a3, List.nil_append]
      · rw [c6, d6, a4, List.nil_append, runs_names hR]
        congr 2
        exact if_congr hbad rfl rfl
  · right
    rw [he] at hm
    refine ⟨pre, t, post, ends, s', s'', out, l'.out, hp, hR, hc, ?_, ?_, ?_⟩
    · rw [hm]
      simp only [b1]
    · rw [b2, (harness_head _ _ _ _).1, b3]
    · rw [b2, (harness_head _ _ _ _).2.2.2.2.2, b4]

theorem runs_all_ok {ts : List (Test σ)} {s s1 s2 : σ} {e1 e2 : List End} (h1 : Runs ts s e1 s1) (h2 : Runs ts s e2 s2) :
    e1 = e2 ∧ s1 = s2 := by
  induction h1 generalizing e2 s2 with
  | nil =>
    cases h2
    exact ⟨rfl, rfl⟩
  | cons hc _ _ ih =>
    cases h2 with
    | cons hc' _ hr =>
      rw [hc] at hc'
      cases hc'
      obtain ⟨rfl, rfl⟩ := ih hr
      exact ⟨rfl, rfl⟩

theorem runs_append {pre : List (Test σ)} {post : List (Test σ)} {s s2 : σ} {e2 : List End} (h2 : Runs (pre ++ post) s e2 s2) :
    ∀ {s1 : σ} {e1 : List End}, Runs pre s e1 s1 → ∃ e3, Runs post s1 e3 s2 := by
  induction pre generalizing s e2 with
  | nil =>
    intro s1 e1 h
    cases h
    exact ⟨_, h2⟩
  | cons t pre ih =>
    intro s1 e1 h
    cases h with
    | cons hc _ hr =>
      cases h2 with
      | cons hc' _ hr' =>
        rw [hc] at hc'
        cases hc'
        exact ih hr' hr

/-- C66.  The program exits with code 0 exactly if every test selected returns when its turn comes. -/
theorem C66_exit_zero (tests : List (Test σ)) (shutdown : σ → σ) (ms : Str → σ → ℤ) (prog : Str) (names : List Str) (s : σ) :
    (main tests shutdown ms (prog :: names) s).2.2 = .code 0 ↔
      ∃ ends s', Runs (selected tests names) s ends s' ∧ ∀ e ∈ ends, e = .ok := by
  rcases C66_verdict tests shutdown ms prog names s with ⟨ends, s', hR, out, hm, -⟩ |
    ⟨pre, t, post, ends, s', s'', out, out', hp, hR, hc, hm, -⟩
  · rw [hm]
    constructor
    · intro h
      refine ⟨ends, s', hR, ?_⟩
      by_contra hne
      rw [if_neg hne] at h
      cases h
    · rintro ⟨e2, s2, hR2, h2⟩
      obtain ⟨rfl, rfl⟩ := runs_all_ok hR hR2
      rw [if_pos h2]
  · rw [hm]
    constructor
    · intro h
      cases h
    · rintro ⟨e2, s2, hR2, -⟩
      rw [hp] at hR2
      obtain ⟨e3, h3⟩ := runs_append hR2 hR
      cases h3 with
      | cons hc' hf _ =>
        rw [hc] at hc'
        cases hc'
        exact absurd rfl hf

/-- C66, where the code falls short: if none of the names given is the name of a test, nothing is run and the program succeeds. -/
theorem C66_unknown_names_witness (tests : List (Test σ)) (shutdown : σ → σ) (ms : Str → σ → ℤ) (prog : Str) (names : List Str)
    (hne : names ≠ []) (h : ∀ t ∈ tests, t.name ∉ names) (s : σ) :
    (main tests shutdown ms (prog :: names) s).1 = shutdown s ∧ (main tests shutdown ms (prog :: names) s).2.2 = .code 0 := by
  have h0 : selected tests names = [] := by
    unfold selected
    rw [List.filter_eq_nil_iff]
    intro t ht
    simp [hne, h t ht]
  rcases C66_verdict tests shutdown ms prog names s with ⟨ends, s', hR, out, hm, -⟩ |
    ⟨pre, t, post, ends, s', s'', out, out', hp, hR, hc, hm, -⟩
  · rw [h0] at hR
    cases hR
    rw [hm]
    simp
  · rw [h0] at hp
    exact absurd hp.symm (by simp)

/-- C66, where the code falls short: the line that says how many tests ran has the number of all tests.  Here it says that one test ran,
and none was started. -/
theorem C66_ran_witness (t : Test σ) (prog name : Str) (h : t.name ≠ name) (shutdown : σ → σ) (ms : Str → σ → ℤ) (s : σ) :
    started (main [t] shutdown ms [prog, name] s).2.1 = [] ∧ numbers (main [t] shutdown ms [prog, name] s).2.1 = [1, 0] := by
  have h0 : selected [t] [name] = [] := by simp [selected, h]
  rcases C66_verdict [t] shutdown ms prog [name] s with ⟨ends, s', hR, out, hm, h1, -, -, -, -, h2⟩ |
    ⟨pre, t, post, ends, s', s'', out, out', hp, hR, hc, hm, -⟩
  · rw [h0] at hR
    cases hR
    rw [hm]
    exact ⟨by rw [h1, h0]; rfl, by rw [h2]; simp⟩
  · rw [h0] at hp
    exact absurd hp.symm (by simp)

/-- C66.  Tests are kept in the order in which they are registered, and nothing else is. -/
theorem C66_register (l : List (Str × Code σ)) :
    l.foldl (fun ts x => register ts x.1 x.2) [] = l.map fun x => ⟨x.1, x.2⟩ := by
  have : ∀ ts : List (Test σ), l.foldl (fun ts x => register ts x.1 x.2) ts = ts ++ l.map fun x => ⟨x.1, x.2⟩ := by
    induction l with
    | nil => simp
    | cons x l ih =>
      intro ts
      rw [List.foldl_cons, ih]
      simp [register]
  simpa using this []

/-! ## Assertions -/

theorem contains_iff (s se : Str) : Harness.contains s se = true ↔ se <:+: s := by
  induction s with
  | nil => simp [Harness.contains]
  | cons c s ih => rw [Harness.contains, Bool.or_eq_true, ih, List.isPrefixOf_iff_prefix, List.infix_cons_iff]

/-- C66.  `ASSERT_THROW` goes on exactly if the code throws an exception of the standard hierarchy whose type has the name given somewhere
in its own name; it keeps the effects of the code; foreign exceptions pass through. -/
theorem C66_throw (f : Code σ) (pos sx se : Str) (s : σ) :
    (testThrow f pos sx se s).1 = (f s).1 ∧
    ((testThrow f pos sx se s).2.2 = .ok ↔
      (∃ name what, (f s).2.2 = .exc name what ∧ se <:+: name) ∨ ((f s).2.2 = .testError ∧ se <:+: testErrorName)) ∧
    ((testThrow f pos sx se s).2.2 = .foreign ↔ (f s).2.2 = .foreign) ∧
    ((testThrow f pos sx se s).2.2 = .ok → (testThrow f pos sx se s).2.1 = (f s).2.1) := by
  rcases h : f s with ⟨s1, out, r⟩
  cases r <;> simp only [testThrow, h] <;> (try split) <;> simp_all [contains_iff]

/-- C66, where the code falls short: an assertion that fails inside `ASSERT_THROW(..., error)` counts as what was expected. -/
theorem C66_throw_own_witness (pos sx text : Str) (s : σ) :
    (testThrow (assertThat (fun _ => false) fun _ => text) pos sx "error".toList s).2.2 = .ok := by
  rw [(C66_throw _ _ _ _ _).2.1]
  right
  refine ⟨rfl, ?_⟩
  rw [← contains_iff]
  decide

/-- C66.  A test made of assertions about the state, one after the other, returns exactly if all of them hold; otherwise it throws
`test_error` and prints the text of the first that does not hold, and nothing of the rest. -/
theorem C66_asserts (l : List ((σ → Bool) × (σ → Str))) (s : σ) :
    let code := l.foldr (fun x c => seq (assertThat x.1 x.2) c) fun s => (s, [], .ok)
    (code s).1 = s ∧ ((code s).2.2 = .ok ↔ ∀ x ∈ l, x.1 s = true) ∧
    ∀ pre x post, l = pre ++ x :: post → (∀ y ∈ pre, y.1 s = true) → x.1 s = false →
      (code s).2 = ([x.2 s, []], .testError) := by
  induction l with
  | nil => simp
  | cons a l ih =>
    obtain ⟨i1, i2, i3⟩ := ih
    by_cases ha : a.1 s = true
    · simp only [List.foldr_cons, seq, assertThat, ha, if_true, List.nil_append]
      refine ⟨i1, ?_, ?_⟩
      · rw [i2]
        simp [ha]
      · intro pre x post he hp hx
        cases pre with
        | nil =>
          simp only [List.nil_append, List.cons.injEq] at he
          rw [he.1, hx] at ha
          cases ha
        | cons y pre =>
          simp only [List.cons_append, List.cons.injEq] at he
          exact i3 pre x post he.2 (fun z hz => hp z (List.mem_cons_of_mem _ hz)) hx
    · simp only [List.foldr_cons, seq, assertThat, ha]
      refine ⟨rfl, by simp [ha], ?_⟩
      intro pre x post he hp hx
      cases pre with
      | nil =>
        simp only [List.nil_append, List.cons.injEq] at he
        rw [he.1]
        rfl
      | cons y pre =>
        simp only [List.cons_append, List.cons.injEq] at he
        exact absurd (he.1 ▸ hp y List.mem_cons_self) ha

/-! ## Examples -/

/-- Three tests on a counter: the second fails with an exception, the third with an assertion that the second made false. -/
def harnessExample : List (Test ℕ) :=
  [⟨['a'], fun s => (s + 1, [], .ok)⟩, ⟨['b'], fun s => (s + 1, [['x']], .exc ['E'] ['w'])⟩,
    ⟨['c'], assertThat (fun s => s = 1) fun _ => ['!']⟩]

example : main harnessExample (fun s => s * 10) (fun _ _ => 7) [['p']] 0 = (20,
    [.header ['p'] 3, .run ['a'], .okay ['a'] 7, .run ['b'], .user ['x'], .exception ['E'] ['w'], .failed ['b'] 7, .run ['c'],
      .user ['!'], .user [], .failed ['c'] 7, .ran 3 21, .passed 1, .failures 2, .failure ['b'], .failure ['c']], .code 1) := rfl

/-- Selecting two of them. -/
example : (main harnessExample (fun s => s * 10) (fun _ _ => 7) [['p'], ['c'], ['a']] 0).2.2 = .code 0 := by
  rw [C66_exit_zero]
  exact ⟨[.ok, .ok], 1, .cons rfl (by simp) (.cons rfl (by simp) (.nil _)), by simp⟩

/-- A name that is none. -/
example : (main harnessExample id (fun _ _ => 7) [['p'], ['d']] 0).2.2 = .code 0 :=
  (C66_unknown_names_witness harnessExample id _ ['p'] [['d']] (by simp) (by decide) 0).2

/-- A test that throws an integer ends the program. -/
example : (main [⟨['a'], fun s => (s, [], .foreign)⟩, ⟨['b'], fun s => (s, [], .ok)⟩] id (fun _ _ => 7) [['p']] 0).2.2 = .terminate := rfl

example : (testThrow (fun s : ℕ => (s, [], .exc "St13runtime_error".toList [])) [] [] "runtime_error".toList 0).2.2 = .ok := by
  rw [(C66_throw _ _ _ _ _).2.1]
  left
  exact ⟨_, _, rfl, (contains_iff _ _).mp (by decide)⟩

end Mandelbrot.Props
