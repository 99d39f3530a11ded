import Verif.Runtime.Deref

/-!
# C25 and C50: twiddle caches and shutdown hooks

A history is any list of calls of `slice`, `big_slice`, `clear` (each on the host or the device cache),
`on_shutdown` and `shutdown`, from the start of the process.
-/

namespace Mandelbrot.Props

open _root_.Mandelbrot.Runtime

/-- Specification: the root of unity number `j` of order `2^(s+1)`. -/
noncomputable def rootSpec (s : ℕ) (j : ℤ) : ℂ := Complex.exp (2 * Real.pi * Complex.I * j / (2 * 2 ^ s : ℕ))

/-- Calls that do not empty cache `d`. -/
def Keeps (d : Side) (l : List Op) : Prop := ∀ o ∈ l, o ≠ .clear d ∧ o ≠ .shutdown

/-- **C25**: after any history, a table request in the range of `int` succeeds, and every value read through the
pointer it returns is the root of unity asked for, at once and after any further calls that do not clear this cache. -/
theorem C25_slice {h : List Op} {st : St ℂ} (hr : run exactEnv h St.init = .ok st) (d : Side) {s : ℕ} (hs : s ≤ 29) :
    ∃ t st1, Runtime.slice exactEnv d s st = .ok (t, st1) ∧
      ∀ l st2, Keeps d l → run exactEnv l st1 = .ok st2 → ∀ j, t.at st2 j = .ok (rootSpec s j) := by
  obtain ⟨i, hh⟩ := run_inv (Inv.init _) HInv.init hr
  obtain ⟨c, st1, a, e, i1, g, hc, ha⟩ := slice_spec i d hs
  refine ⟨_, st1, e, fun l st2 hk hl j => ?_⟩
  obtain ⟨i2, _⟩ := run_inv i1 (hh.grow g) hl
  obtain ⟨c', hc', _, hp⟩ := run_keep i1 (hh.grow g) hl hk hc
  have hget : c'.tw[s]? = some a := by
    obtain ⟨r, hr⟩ := hp
    rw [← hr, List.getElem?_append_left (List.getElem?_eq_some_iff.mp ha).1, ha]
  exact slice_at (i2.tw d c' hc' s a hget) j

/-- **C25**: the same for the product form, for the levels that have a row of first twiddles. -/
theorem C25_big_slice {h : List Op} {st : St ℂ} (hr : run exactEnv h St.init = .ok st) (d : Side) {s : ℕ} (h2 : 2 ≤ s)
    (hs : s ≤ 29) :
    ∃ t st1, Runtime.bigSlice exactEnv d s st = .ok (t, st1) ∧
      ∀ l st2, Keeps d l → run exactEnv l st1 = .ok st2 → ∀ j, t.at st2 j = .ok (rootSpec s j) := by
  obtain ⟨i, hh⟩ := run_inv (Inv.init _) HInv.init hr
  have hs' : s < Runtime.sLimit := by unfold Runtime.sLimit; omega
  obtain ⟨c, st1, a, e, i1, g, hc, ha⟩ := bigSlice_spec i d h2 hs'
  refine ⟨_, st1, e, fun l st2 hk hl j => ?_⟩
  obtain ⟨i2, _⟩ := run_inv i1 (hh.grow g) hl
  obtain ⟨c', hc', hf, hp⟩ := run_keep i1 (hh.grow g) hl hk hc
  have hget : c'.tw[s - 2]? = some a := by
    obtain ⟨r, hr⟩ := hp
    rw [← hr, List.getElem?_append_left (List.getElem?_eq_some_iff.mp ha).1, ha]
  have hfew := i2.few d c' hc'
  rw [hf] at hfew
  exact bigSlice_at h2 hs' (i2.tw d c' hc' _ a hget) hfew j

/-- **C25**: two requests with no clearing between them return the same pointer: the second one computes nothing. -/
theorem C25_same_pointer {h l : List Op} {st st1 st2 : St ℂ} (hr : run exactEnv h St.init = .ok st) {d : Side} {s : ℕ}
    {t : TwiddleSlice} (e : Runtime.slice exactEnv d s st = .ok (t, st1)) (hk : Keeps d l)
    (hl : run exactEnv l st1 = .ok st2) : ∃ st3, Runtime.slice exactEnv d s st2 = .ok (t, st3) := by
  obtain ⟨i, hh⟩ := run_inv (Inv.init _) HInv.init hr
  have hs := (slice_ok i e).1
  obtain ⟨c, st1', a, e', i1, g, hc, ha⟩ := slice_spec i d hs
  rw [e'] at e
  cases e
  obtain ⟨i2, _⟩ := run_inv i1 (hh.grow g) hl
  obtain ⟨c', hc', _, hp⟩ := run_keep i1 (hh.grow g) hl hk hc
  obtain ⟨c3, st3, a3, e3, i3, g3, hc3, ha3⟩ := slice_spec i2 d hs
  obtain ⟨c4, hc4, _, hp4⟩ := g3.cache d c' hc'
  rw [hc3] at hc4
  cases hc4
  obtain ⟨r, hr⟩ := hp.trans hp4
  rw [← hr, List.getElem?_append_left (List.getElem?_eq_some_iff.mp ha).1, ha] at ha3
  cases ha3
  exact ⟨st3, e3⟩

/-- **C25**, limits: past the range of `int`, or past the rows of first twiddles, a request is undefined behaviour in
every reachable state.  A product form below its minimum throws. -/
theorem C25_limits {h : List Op} {st : St ℂ} (hr : run exactEnv h St.init = .ok st) (d : Side) (s : ℕ) :
    (30 ≤ s → Runtime.slice exactEnv d s st = .error .ub) ∧ (30 ≤ s → Runtime.bigSlice exactEnv d s st = .error .ub) ∧
      (s < 2 → Runtime.bigSlice exactEnv d s st = .error .assertion) := by
  obtain ⟨i, hh⟩ := run_inv (Inv.init _) HInv.init hr
  refine ⟨slice_ub i d, bigSlice_ub i d, fun h2 => ?_⟩
  rw [Runtime.bigSlice, slowAssert_false (by omega), berr]

/-- **C25**, converse: once its cache is cleared, a pointer handed out before is no longer valid. -/
theorem C25_clear_ends {h : List Op} {st st1 st2 : St ℂ} (hr : run exactEnv h St.init = .ok st) {d : Side} {s : ℕ}
    {t : TwiddleSlice} (e : Runtime.slice exactEnv d s st = .ok (t, st1)) (ec : Runtime.clear exactEnv d st1 = .ok st2)
    (j : ℤ) : t.at st2 j = .error .ub := by
  obtain ⟨i, hh⟩ := run_inv (Inv.init _) HInv.init hr
  have hs := (slice_ok i e).1
  obtain ⟨c, st1', a, e', i1, g, hc, ha⟩ := slice_spec i d hs
  rw [e'] at e
  cases e
  obtain ⟨c1, st3, st4, e4, -, i4, g4, hc3, -, -, -, -, hlive⟩ := clear_spec i1 d
  rw [e4] at ec
  cases ec
  obtain ⟨c5, hc5, -, hp⟩ := g4.cache d c hc
  rw [hc3] at hc5
  cases hc5
  have hm : a ∈ c1.tw := hp.subset (List.mem_of_getElem? ha)
  have hn := hlive a
  rw [if_pos hm] at hn
  simp only [TwiddleSlice.at, St.entry, St.read, hn, berr]

/-- **C25**: two requests on each side, a clearing in between, and a third request. -/
example : ∃ st, run exactEnv [.slice .device 3, .bigSlice .host 5, .clear .host, .slice .host 2] St.init = .ok st := by
  have i0 := Inv.init exactEnv
  obtain ⟨_, s1, _, e1, i1, _⟩ := slice_spec i0 .device (s := 3) (by norm_num)
  obtain ⟨_, s2, _, e2, i2, _⟩ := bigSlice_spec i1 .host (s := 5) (by norm_num) (by unfold Runtime.sLimit; norm_num)
  obtain ⟨_, _, s3, e3, _, i3, _⟩ := clear_spec i2 .host
  obtain ⟨_, s4, _, e4, i4, _⟩ := slice_spec i3 .host (s := 2) (by norm_num)
  refine ⟨s4, ?_⟩
  simp only [run, step, e1, e2, e3, e4, bok, pok]

/-! ## Shutdown -/

/-- Specification: functions registered by the program, and those that must have run, read off the calls alone. -/
def hookSpec : List Op → List ℕ × List ℕ
  | l => l.foldl (fun p o => match o with
    | .onShutdown id _ => (p.1 ++ [id], p.2)
    | .shutdown => (p.1, p.2 ++ p.1)
    | _ => p) ([], [])

/-- The functions of the program among the hooks. -/
def userIds (l : List Hook) : List ℕ := l.filterMap fun h => match h with
  | .user id _ => some id
  | .clear _ => none

theorem userIds_append (l m : List Hook) : userIds (l ++ m) = userIds l ++ userIds m := List.filterMap_append

theorem userIds_clear (l : List Side) : userIds (l.map .clear) = [] := by
  induction l with
  | nil => rfl
  | cons d l ih => exact ih

/-- Effect of one call on hooks and log. -/
theorem step_hooks {E : Env ℂ} {o : Op} {st st' : St ℂ} (h : Inv E st) (hh : HInv st) (e : step E o st = .ok st') :
    userIds st'.hooks = userIds st.hooks ++ (match o with | .onShutdown id _ => [id] | _ => []) ∧
      st'.log = st.log ++ (match o with | .shutdown => st.hooks | _ => []) := by
  have grow : ∀ {a b : St ℂ}, Grow a b → userIds b.hooks = userIds a.hooks ∧ b.log = a.log := by
    intro a b g
    obtain ⟨l, e, -⟩ := g.hooks
    exact ⟨by rw [e, userIds_append, userIds_clear, List.append_nil], g.log⟩
  cases o with
  | slice d s =>
    rw [step, bind_ok_iff] at e
    obtain ⟨⟨t, st1⟩, e1, e2⟩ := e
    cases e2
    simpa using grow (slice_ok h e1).2.2
  | bigSlice d s =>
    rw [step, bind_ok_iff] at e
    obtain ⟨⟨t, st1⟩, e1, e2⟩ := e
    cases e2
    simpa using grow (bigSlice_ok h e1).2.2.2
  | clear d =>
    obtain ⟨c, st1, st2, e1, -, i, g, hc, hc2, ho, hk, hl, -⟩ := clear_spec h d
    rw [step, e1] at e
    cases e
    have := grow g
    simp [hk, hl, this]
  | onShutdown id reg =>
    cases e
    exact ⟨by simp [onShutdown, userIds], by simp [onShutdown]⟩
  | shutdown =>
    obtain ⟨i, a, b, -⟩ := runHooks_spec st.hooks h (fun d => hh.constructed) e
    exact ⟨by simp [a], b⟩

/-- **C50**: for every history of calls, the functions of the program that have run are exactly those the calls ask
for: at each shutdown every function registered so far, once per registration, in the order of registration. -/
theorem C50_hooks_run {h : List Op} {st : St ℂ} (hr : run exactEnv h St.init = .ok st) :
    userIds st.log = (hookSpec h).2 ∧ userIds st.hooks = (hookSpec h).1 := by
  suffices H : ∀ (h : List Op) (st0 st : St ℂ) (p : List ℕ × List ℕ), Inv exactEnv st0 → HInv st0 → userIds st0.hooks = p.1 →
      userIds st0.log = p.2 → run exactEnv h st0 = .ok st →
      userIds st.log = (h.foldl (fun p o => match o with
        | .onShutdown id _ => (p.1 ++ [id], p.2)
        | .shutdown => (p.1, p.2 ++ p.1)
        | _ => p) p).2 ∧ userIds st.hooks = (h.foldl (fun p o => match o with
        | .onShutdown id _ => (p.1 ++ [id], p.2)
        | .shutdown => (p.1, p.2 ++ p.1)
        | _ => p) p).1 from
    H h St.init st ([], []) (Inv.init _) HInv.init rfl rfl hr
  intro h
  induction h with
  | nil =>
    intro st0 st p _ _ h1 h2 e
    cases e
    exact ⟨h2, h1⟩
  | cons o l ih =>
    intro st0 st p i hh h1 h2 e
    rw [run, bind_ok_iff] at e
    obtain ⟨st1, e1, e2⟩ := e
    obtain ⟨i1, hh1⟩ := step_inv i hh e1
    obtain ⟨a, b⟩ := step_hooks i hh e1
    rw [List.foldl_cons]
    refine ih st1 st _ i1 hh1 ?_ ?_ e2
    · rw [a, h1]; cases o <;> simp
    · rw [b, userIds_append, h2]; cases o <;> simp [userIds, ← h1]

/-- **C50**: a shutdown after any history runs the whole list of hooks once in order, keeps it for the next
shutdown, and the list holds the clearing of each constructed cache exactly once. -/
theorem C50_shutdown {h : List Op} {st st' : St ℂ} (hr : run exactEnv h St.init = .ok st)
    (e : shutdown exactEnv st = .ok st') :
    st'.log = st.log ++ st.hooks ∧ st'.hooks = st.hooks ∧
      ∀ d, st.hooks.count (.clear d) = if (st.cache d).isSome then 1 else 0 := by
  obtain ⟨i, hh⟩ := run_inv (Inv.init _) HInv.init hr
  obtain ⟨-, a, b, -⟩ := runHooks_spec st.hooks i (fun d => hh.constructed) e
  exact ⟨b, a, hh⟩

/-- **C50**: shutdown succeeds exactly when no registered function registers another one while it runs; such a
function changes the list under iteration, which is undefined behaviour. -/
theorem C50_shutdown_defined {h : List Op} {st : St ℂ} (hr : run exactEnv h St.init = .ok st) :
    (∃ st', shutdown exactEnv st = .ok st') ↔ ∀ id, Hook.user id true ∉ st.hooks := by
  obtain ⟨i, hh⟩ := run_inv (Inv.init _) HInv.init hr
  refine ⟨fun ⟨st', e⟩ id hm => ?_, runHooks_ok _ i⟩
  have : ∀ (l : List Hook) (s0 s1 : St ℂ), Hook.user id true ∈ l → runHooks exactEnv l s0 = .ok s1 → False := by
    intro l
    induction l with
    | nil => intro _ _ hm; simp at hm
    | cons x l ih =>
      intro s0 s1 hm e
      rw [runHooks, bind_ok_iff] at e
      obtain ⟨s2, e1, e2⟩ := e
      rcases List.mem_cons.mp hm with rfl | hm
      · simp [runHook] at e1
      · exact ih s2 s1 hm e2
  exact this _ _ _ hm e

/-- **C50**: shutdown empties every cache and frees its tables. -/
theorem C50_caches_emptied {h : List Op} {st st' : St ℂ} (hr : run exactEnv h St.init = .ok st)
    (e : shutdown exactEnv st = .ok st') {d : Side} {c : Cache} (hc : st.cache d = some c) :
    (∃ c', st'.cache d = some c' ∧ c'.tw = []) ∧ ∀ a ∈ c.tw, st'.live a = none := by
  obtain ⟨i, hh⟩ := run_inv (Inv.init _) HInv.init hr
  obtain ⟨-, -, -, -, -, f⟩ := runHooks_spec st.hooks i (fun d => hh.constructed) e
  obtain ⟨c', p, q, r, s⟩ := f d c hc
  have hk := hh.hook hc
  rw [if_pos hk] at r
  exact ⟨⟨c', p, r⟩, fun a ha => by rw [s a ha, if_pos hk]⟩

/-- **C50**: after any number of shutdowns the caches still answer with the same values. -/
theorem C50_reusable {h : List Op} {st st' : St ℂ} (hr : run exactEnv h St.init = .ok st)
    (e : shutdown exactEnv st = .ok st') (d : Side) {s : ℕ} (hs : s ≤ 29) :
    ∃ t st1, Runtime.slice exactEnv d s st' = .ok (t, st1) ∧ ∀ j, t.at st1 j = .ok (rootSpec s j) := by
  have hr' : run exactEnv (h ++ [.shutdown]) St.init = .ok st' := by
    have : ∀ (l : List Op) (s0 : St ℂ), run exactEnv l s0 = .ok st → run exactEnv (l ++ [.shutdown]) s0 = .ok st' := by
      intro l
      induction l with
      | nil => intro s0 hs0; cases hs0; simp only [List.nil_append, run, step, e, bok]
      | cons o l ih =>
        intro s0 hs0
        rw [run, bind_ok_iff] at hs0
        obtain ⟨s1, e1, e2⟩ := hs0
        rw [List.cons_append, run, e1, bok]
        exact ih s1 e2
    exact this h _ hr
  obtain ⟨t, st1, e1, hv⟩ := C25_slice hr' d hs
  exact ⟨t, st1, e1, hv [] st1 (by intro o ho; simp at ho) rfl⟩

/-- **C50**: a table request between two registrations, then two shutdowns. -/
example : ∃ st, run exactEnv [.onShutdown 7 false, .slice .device 3, .onShutdown 8 false, .shutdown, .shutdown] St.init = .ok st ∧
    userIds st.log = [7, 8, 7, 8] := by
  obtain ⟨st, e⟩ : ∃ st, run exactEnv [.onShutdown 7 false, .slice .device 3, .onShutdown 8 false, .shutdown, .shutdown] St.init = .ok st := by
    have i0 : Inv exactEnv (onShutdown 7 false St.init) := (step_inv (o := .onShutdown 7 false) (Inv.init _) HInv.init rfl).1
    have h0 : HInv (onShutdown 7 false (St.init : St ℂ)) := (step_inv (E := exactEnv) (o := .onShutdown 7 false) (Inv.init _) HInv.init rfl).2
    obtain ⟨_, s1, _, e1, i1, g1, _⟩ := slice_spec i0 .device (s := 3) (by norm_num)
    have h1 := h0.grow g1
    obtain ⟨i2, h2⟩ := step_inv (o := .onShutdown 8 false) i1 h1 rfl
    obtain ⟨l, hl, -⟩ := g1.hooks
    have hno : ∀ id, Hook.user id true ∉ (onShutdown 8 false s1).hooks := by
      intro id hm
      simp [onShutdown, hl, St.init] at hm
    obtain ⟨s3, e3⟩ := runHooks_ok _ i2 hno
    obtain ⟨i3, h3⟩ := step_inv (o := .shutdown) i2 h2 e3
    have hk := (runHooks_spec _ i2 (fun d => h2.constructed) e3).2.1
    obtain ⟨s4, e4⟩ := runHooks_ok s3.hooks i3 (by rw [hk]; exact hno)
    refine ⟨s4, ?_⟩
    simp only [run, step, bok, pok, e1, shutdown, e3, e4]
  exact ⟨st, e, (C50_hooks_run e).1⟩

end Mandelbrot.Props
