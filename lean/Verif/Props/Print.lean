import Verif.IO.Print
import Mathlib.Data.List.Basic
import Mathlib.Data.List.TakeWhile

/-!
# C51: printed output is duplicated faithfully
-/

namespace Verif.Print

/-! ## Specification -/

/-- A message handed to one of the two streams: `true` for standard output. -/
structure Msg where
  toOut : Bool
  text : Str

/-- The text up to its first NUL, and a newline. -/
def Msg.bytes (m : Msg) : Str := m.text.takeWhile (· ≠ '\x00') ++ "\n".toList

/-- The calls that print a message. -/
def Msg.call (m : Msg) : Call := if m.toOut then .print m.text else .printError m.text

/-- All bytes of a list of messages, in order. -/
def bytes (ms : List Msg) : Str := (ms.map Msg.bytes).flatten

/-- The messages of one stream. -/
def outs (ms : List Msg) : List Msg := ms.filter (·.toOut)
def errs (ms : List Msg) : List Msg := ms.filter (fun m => !m.toOut)

theorem outs_append (a b : List Msg) : outs (a ++ b) = outs a ++ outs b := List.filter_append ..
theorem errs_append (a b : List Msg) : errs (a ++ b) = errs a ++ errs b := List.filter_append ..
theorem outs_err (s : Str) : outs [⟨false, s⟩] = [] := rfl
theorem errs_err (s : Str) : errs [⟨false, s⟩] = [⟨false, s⟩] := rfl
theorem bytes_nil : bytes [] = [] := rfl
theorem bytes_cons (m : Msg) (ms : List Msg) : bytes (m :: ms) = m.bytes ++ bytes ms := by
  simp [bytes]
theorem bytes_append (a b : List Msg) : bytes (a ++ b) = bytes a ++ bytes b := by
  simp [bytes]

theorem line_eq (s : Str) : line s = Msg.bytes ⟨true, s⟩ := rfl

@[ext] theorem World.ext' {a b : World} (h1 : a.out = b.out) (h2 : a.err = b.err)
    (h3 : a.files = b.files) (h4 : a.teeing = b.teeing) (h5 : a.exited = b.exited) : a = b := by
  cases a; cases b; simp_all

/-- What the messages do to a world: append to the streams, and to the log if there is one. -/
def World.after (w : World) (ms : List Msg) : World :=
  { w with
    out := w.out ++ bytes (outs ms)
    err := w.err ++ bytes (errs ms)
    files := fun q => if w.teeing = some q then (w.files q).map (· ++ bytes ms) else w.files q }

theorem teePrint_eq (s : Str) (w : World) :
    teePrint s w =
      { w with
        files := fun q =>
          if w.teeing = some q then (w.files q).map (· ++ line s) else w.files q } := by
  unfold teePrint
  rcases h : w.teeing with _ | p
  · apply World.ext' <;> simp [h]
  · apply World.ext' <;> simp
    funext q
    by_cases e : q = p
    · simp [e]
    · simp [e, Ne.symm e]

theorem step_msg (os : Os) (w : World) (m : Msg) (h : w.exited = none) :
    step os w m.call = w.after [m] := by
  obtain ⟨o, s⟩ := m
  cases o
  · simp only [Msg.call, step, h, printError, teePrint_eq, World.after]
    apply World.ext' <;> simp [outs, errs, bytes, line_eq, Msg.bytes]
  · simp only [Msg.call, step, h, print, teePrint_eq, World.after]
    apply World.ext' <;> simp [outs, errs, bytes, line_eq, Msg.bytes]

theorem after_after (w : World) (a b : List Msg) : (w.after a).after b = w.after (a ++ b) := by
  apply World.ext' <;> simp [World.after, outs, errs, bytes_append]
  funext q
  by_cases e : w.teeing = some q
  · simp [e, Function.comp_def, List.append_assoc]
  · simp [e]

theorem after_nil (w : World) : w.after [] = w := by
  apply World.ext' <;> simp [World.after, outs, errs, bytes]

theorem run_msgs (os : Os) (w : World) (ms : List Msg) (h : w.exited = none) :
    run os w (ms.map Msg.call) = w.after ms := by
  induction ms generalizing w with
  | nil => simp [run, after_nil]
  | cons m ms ih =>
    have : run os w ((m :: ms).map Msg.call) = run os (step os w m.call) (ms.map Msg.call) := rfl
    rw [this, step_msg os w m h, ih _ (by simpa [World.after] using h), after_after]
    rfl

theorem run_append (os : Os) (w : World) (a b : List Call) :
    run os w (a ++ b) = run os (run os w a) b := by simp [run]

theorem run_exited (os : Os) (w : World) (cs : List Call) (h : w.exited.isSome) :
    run os w cs = w := by
  induction cs with
  | nil => rfl
  | cons c cs ih =>
    have : run os w (c :: cs) = run os (step os w c) cs := rfl
    rw [this]
    simpa [step, h] using ih

/-- Opening the log. -/
theorem tee_ok (os : Os) (w : World) (p : Str) (hx : w.exited = none) (ht : w.teeing = none)
    (hf : w.files (p.takeWhile (· ≠ '\x00')) = none)
    (hc : os.creatable (p.takeWhile (· ≠ '\x00')) = true) (hd : os.fdopens = true) :
    step os w (.tee p) =
      { w with
        files := fun q => if q = p.takeWhile (· ≠ '\x00') then some [] else w.files q
        teeing := some (p.takeWhile (· ≠ '\x00')) } := by
  simp only [step, hx, tee, ht, cstr]
  simp only [hf, hc, hd]
  simp

/-! ## Theorems -/

/-- **C51.**  From any point without a log: after `tee(path)` on a path that can be created, every
sequence of printed messages is appended to standard output and standard error, and the new file
holds all of them, in order, each exactly once, with nothing else.  No other file changes, the
process goes on. -/
theorem C51_duplicated (os : Os) (w : World) (path : Str) (before ms : List Msg)
    (hx : w.exited = none) (ht : w.teeing = none)
    (hf : w.files (path.takeWhile (· ≠ '\x00')) = none)
    (hc : os.creatable (path.takeWhile (· ≠ '\x00')) = true) (hd : os.fdopens = true) :
    let w' := run os w (before.map Msg.call ++ [Call.tee path] ++ ms.map Msg.call)
    w'.out = w.out ++ bytes (outs before) ++ bytes (outs ms) ∧
    w'.err = w.err ++ bytes (errs before) ++ bytes (errs ms) ∧
    w'.files (path.takeWhile (· ≠ '\x00')) = some (bytes ms) ∧
    (∀ q, q ≠ path.takeWhile (· ≠ '\x00') → w'.files q = w.files q) ∧
    w'.exited = none := by
  intro w'
  have e : w' = run os (step os (w.after before) (.tee path)) (ms.map Msg.call) := by
    show run os w _ = _
    rw [run_append, run_append, run_msgs os w before hx]
    rfl
  have hfiles : ∀ q, (w.after before).files q = w.files q := by
    intro q; simp [World.after, ht]
  rw [tee_ok os _ path (by simpa [World.after] using hx) (by simpa [World.after] using ht)
    (by rw [hfiles]; exact hf) hc hd, run_msgs os _ ms (by simpa [World.after] using hx)] at e
  rw [e]
  refine ⟨?_, ?_, ?_, ?_, ?_⟩
  · simp [World.after]
  · simp [World.after]
  · simp [World.after]
  · intro q hq
    have hq' : ¬ (some (path.takeWhile (· ≠ '\x00')) = some q) := fun h => hq (Option.some.inj h).symm
    simp only [World.after]
    rw [if_neg hq', if_neg hq, ht, if_neg (by simp)]
  · simpa [World.after] using hx

/-- With everything printed to standard output, the file is exactly what standard output received
since `tee`. -/
theorem C51_same_as_stdout (os : Os) (w : World) (path : Str) (ms : List Str)
    (hx : w.exited = none) (ht : w.teeing = none)
    (hf : w.files (path.takeWhile (· ≠ '\x00')) = none)
    (hc : os.creatable (path.takeWhile (· ≠ '\x00')) = true) (hd : os.fdopens = true) :
    let w' := run os w (Call.tee path :: ms.map Call.print)
    ∃ log, w'.files (path.takeWhile (· ≠ '\x00')) = some log ∧ w'.out = w.out ++ log ∧
      w'.err = w.err ∧ log = (ms.map fun s => s.takeWhile (· ≠ '\x00') ++ ['\n']).flatten := by
  intro w'
  have := C51_duplicated os w path [] (ms.map (Msg.mk true)) hx ht hf hc hd
  have e : (ms.map (Msg.mk true)).map Msg.call = ms.map Call.print := by
    simp [Msg.call, Function.comp_def]
  have eo : outs (ms.map (Msg.mk true)) = ms.map (Msg.mk true) := by
    simp [outs, List.filter_map, Function.comp_def]
  have ee : errs (ms.map (Msg.mk true)) = [] := by simp [errs, List.filter_map, Function.comp_def]
  rw [e, eo, ee] at this
  obtain ⟨h1, h2, h3, -, -⟩ := this
  refine ⟨_, h3, ?_, ?_, ?_⟩
  · simpa [outs, bytes] using h1
  · simpa [errs, bytes] using h2
  · simp [bytes, Msg.bytes, Function.comp_def]

theorem cut_inj {a b x y : Str} {n : Char} (ha : n ∉ a) (hb : n ∉ b)
    (e : a ++ n :: x = b ++ n :: y) : a = b ∧ x = y := by
  induction a generalizing b with
  | nil =>
    cases b with
    | nil => simpa using e
    | cons c b => simp only [List.nil_append, List.cons_append, List.cons.injEq] at e; simp [e.1] at hb
  | cons c a ih =>
    cases b with
    | nil => simp only [List.nil_append, List.cons_append, List.cons.injEq] at e; simp [e.1] at ha
    | cons d b =>
      simp only [List.cons_append, List.cons.injEq] at e
      have := ih (b := b) (by simp_all) (by simp_all) e.2
      exact ⟨by rw [e.1, this.1], this.2⟩

/-- The log determines the lines: two sequences of messages without NUL and newline that leave the
same log have the same texts in the same order. -/
theorem C51_lines (ms ms' : List Msg) (h : ∀ m ∈ ms, '\x00' ∉ m.text ∧ '\n' ∉ m.text)
    (h' : ∀ m ∈ ms', '\x00' ∉ m.text ∧ '\n' ∉ m.text) (e : bytes ms = bytes ms') :
    ms.map Msg.text = ms'.map Msg.text := by
  have key : ∀ m : Msg, '\x00' ∉ m.text → m.bytes = m.text ++ ['\n'] := by
    intro m hm
    have : m.text.takeWhile (fun c => decide (c ≠ '\x00')) = m.text := by
      rw [List.takeWhile_eq_self_iff]
      intro c hc
      have : c ≠ '\x00' := fun h => hm (h ▸ hc)
      simpa using this
    simp only [Msg.bytes, this]
    rfl
  induction ms generalizing ms' with
  | nil =>
    cases ms' with
    | nil => rfl
    | cons m' ms' => rw [bytes_cons, key _ (h' m' (by simp)).1] at e; simp [bytes] at e
  | cons m ms ih =>
    cases ms' with
    | nil => rw [bytes_cons, key _ (h m (by simp)).1] at e; simp [bytes] at e
    | cons m' ms' =>
      rw [bytes_cons, bytes_cons, key _ (h m (by simp)).1, key _ (h' m' (by simp)).1] at e
      simp only [List.append_assoc, List.singleton_append] at e
      have := cut_inj (h m (by simp)).2 (h' m' (by simp)).2 e
      simp only [List.map_cons, this.1,
        ih ms' (fun x hx => h x (by simp [hx])) (fun x hx => h' x (by simp [hx])) this.2]

/-- Without `tee`, printing touches no file. -/
theorem C51_no_log (os : Os) (w : World) (ms : List Msg) (hx : w.exited = none)
    (ht : w.teeing = none) :
    let w' := run os w (ms.map Msg.call)
    w'.out = w.out ++ bytes (outs ms) ∧ w'.err = w.err ++ bytes (errs ms) ∧ w'.files = w.files ∧
      w'.exited = none := by
  intro w'
  have e : w' = w.after ms := run_msgs os w ms hx
  rw [e]
  refine ⟨rfl, rfl, ?_, hx⟩
  funext q
  simp [World.after, ht]

theorem die_eq (m : Str) (w : World) (h : m ≠ []) :
    die m w = { w.after [⟨false, "\nerror: ".toList ++ m⟩] with exited := some 1 } := by
  have : m.length ≠ 0 := by simpa using h
  simp only [die, if_pos this, printError, teePrint_eq, World.after]
  apply World.ext' <;> simp [outs, errs, bytes, line_eq, Msg.bytes]

/-- A path that exists already (or cannot be created) ends the process with exit code 1 and a
message on standard error; no file is created or changed, and nothing printed later appears. -/
theorem C51_refused (os : Os) (w : World) (path : Str) (later : List Call)
    (hx : w.exited = none) (ht : w.teeing = none)
    (hf : w.files (path.takeWhile (· ≠ '\x00')) ≠ none ∨
      os.creatable (path.takeWhile (· ≠ '\x00')) = false) :
    let w' := run os w (Call.tee path :: later)
    w'.exited = some 1 ∧ w'.out = w.out ∧ w'.files = w.files ∧
      w'.err = w.err ++ bytes [⟨false, "\nerror: can't tee output to '".toList ++ path ++
        "': ".toList ++ os.openError (path.takeWhile (· ≠ '\x00'))⟩] := by
  intro w'
  have hcond : (w.files (cstr path)).isSome = true ∨ ¬ os.creatable (cstr path) = true := by
    rcases hf with hf | hf
    · exact .inl (Option.isSome_iff_ne_none.2 hf)
    · exact .inr (by simpa [cstr] using hf)
  have e1 : step os w (.tee path) = die ("can't tee output to '".toList ++ path ++ "': ".toList ++
      os.openError (cstr path)) w := by
    simp only [step, hx, tee, ht]
    simp only [Option.isSome_none, Bool.false_eq_true, if_false]
    rw [if_pos hcond]
  have e : w' = step os w (.tee path) := by
    show run os (step os w (.tee path)) later = _
    apply run_exited
    rw [e1, die_eq _ _ (by simp)]
    rfl
  rw [e, e1, die_eq _ _ (by simp)]
  refine ⟨rfl, by simp [World.after, outs, bytes], ?_, ?_⟩
  · funext q
    simp [World.after, ht]
  · simp [World.after, errs, cstr]

/-- A second `tee` ends the process with exit code 1.  The message goes to standard error and to
the first log, after everything printed before; the second path is not created. -/
theorem C51_second (os : Os) (w : World) (p path' : Str) (later : List Call) (ms : List Msg)
    (log : Str) (hx : w.exited = none) (ht : w.teeing = some p) (hl : w.files p = some log) :
    let m : Msg := ⟨false, "\nerror: can't tee to two files".toList⟩
    let w' := run os w (ms.map Msg.call ++ Call.tee path' :: later)
    w'.exited = some 1 ∧ w'.out = w.out ++ bytes (outs ms) ∧
      w'.err = w.err ++ bytes (errs ms ++ [m]) ∧ w'.files p = some (log ++ bytes (ms ++ [m])) ∧
      ∀ q, q ≠ p → w'.files q = w.files q := by
  intro m w'
  have e1 : step os (w.after ms) (.tee path') =
      die "can't tee to two files".toList (w.after ms) := by
    have h1 : (w.after ms).exited = none := hx
    have h2 : (w.after ms).teeing = some p := ht
    simp only [step, h1, tee, h2]
    simp
  have e : w' = { w.after (ms ++ [m]) with exited := some 1 } := by
    have : w' = run os (step os (w.after ms) (.tee path')) later := by
      show run os w _ = _
      rw [run_append, run_msgs os w ms hx]
      rfl
    rw [this, e1, die_eq _ _ (by simp), run_exited _ _ _ rfl, after_after]
    rfl
  rw [e]
  refine ⟨rfl, ?_, ?_, ?_, ?_⟩
  · show w.out ++ bytes (outs (ms ++ [m])) = _
    rw [outs_append, outs_err, List.append_nil]
  · show w.err ++ bytes (errs (ms ++ [m])) = _
    rw [errs_append, errs_err]
  · show (if w.teeing = some p then (w.files p).map (· ++ bytes (ms ++ [m])) else w.files p) = _
    rw [if_pos ht, hl]
    rfl
  · intro q hq
    have : ¬ (w.teeing = some q) := by rw [ht]; exact fun h => hq (Option.some.inj h).symm
    simp only [World.after]
    rw [if_neg this]

/-- A message of `die` reaches the log and standard error, and an empty one prints nothing. -/
theorem C51_die (os : Os) (w : World) (p msg log : Str) (later : List Call)
    (hx : w.exited = none) (ht : w.teeing = some p) (hl : w.files p = some log) :
    let added := if msg = [] then [] else bytes [⟨false, "\nerror: ".toList ++ msg⟩]
    let w' := run os w (Call.die msg :: later)
    w'.exited = some 1 ∧ w'.out = w.out ∧ w'.err = w.err ++ added ∧
      w'.files p = some (log ++ added) := by
  intro added w'
  have e : w' = die msg w := by
    show run os (step os w (.die msg)) later = _
    have : step os w (.die msg) = die msg w := by simp [step, hx]
    rw [this]
    exact run_exited _ _ _ rfl
  rw [e]
  by_cases h : msg = []
  · have ha : added = [] := if_pos h
    rw [ha, h, List.append_nil, List.append_nil]
    exact ⟨rfl, rfl, rfl, hl⟩
  · have ha : added = bytes [⟨false, "\nerror: ".toList ++ msg⟩] := if_neg h
    rw [ha, die_eq _ _ h]
    generalize "\nerror: ".toList ++ msg = m
    refine ⟨rfl, List.append_nil _, rfl, ?_⟩
    show (if w.teeing = some p then (w.files p).map (· ++ bytes [⟨false, m⟩]) else w.files p) = _
    rw [if_pos ht, hl]
    rfl

theorem after_keeps (w : World) (ms : List Msg) (q c : Str) (h : w.files q = some c)
    (h' : w.teeing ≠ some q) : (w.after ms).files q = some c := by
  simp [World.after, h', h]

theorem print0_eq (w : World) : print0 w = print [] w := rfl

/-- No history of calls whatever changes the contents of a file that existed before. -/
theorem C51_existing_kept (os : Os) (w : World) (cs : List Call) (q c : Str)
    (h : w.files q = some c) (ht : w.teeing ≠ some q) : (run os w cs).files q = some c := by
  suffices H : (run os w cs).files q = some c ∧ (run os w cs).teeing ≠ some q from H.1
  induction cs generalizing w with
  | nil => exact ⟨h, ht⟩
  | cons k cs ih =>
    have hs : (step os w k).files q = some c ∧ (step os w k).teeing ≠ some q := by
      rcases hx : w.exited with _ | x
      · have hp : ∀ m : Msg, (step os w m.call).files q = some c ∧
            (step os w m.call).teeing ≠ some q := by
          intro m
          rw [step_msg os w m hx]
          exact ⟨after_keeps w _ q c h ht, ht⟩
        have hd : ∀ (w : World) (m : Str), w.files q = some c → w.teeing ≠ some q →
            (die m w).files q = some c ∧ (die m w).teeing ≠ some q := by
          intro w m h ht
          by_cases hm : m = []
          · subst hm; exact ⟨h, ht⟩
          · rw [die_eq _ _ hm]; exact ⟨after_keeps w _ q c h ht, ht⟩
        cases k with
        | print s => exact hp ⟨true, s⟩
        | printError s => exact hp ⟨false, s⟩
        | print0 => exact hp ⟨true, []⟩
        | die m =>
          have : step os w (.die m) = die m w := by simp [step, hx]
          rw [this]; exact hd w m h ht
        | tee p =>
          have : step os w (.tee p) = tee os p w := by simp [step, hx]
          rw [this]
          unfold tee
          split
          · exact hd w _ h ht
          · dsimp only
            split
            · exact hd w _ h ht
            · rename_i hne
              have hpq : q ≠ cstr p := by
                rintro rfl
                exact hne (.inl (by rw [h]; rfl))
              split
              · refine ⟨by simp [hpq, h], ?_⟩
                exact fun e => hpq (Option.some.inj e).symm
              · apply hd
                · simp [hpq, h]
                · exact ht
      · have : step os w k = w := by simp [step, hx]
        rw [this]; exact ⟨h, ht⟩
    exact ih _ hs.1 hs.2

/-- A NUL byte cuts the line, in the log and on standard output alike. -/
theorem C51_nul_witness : bytes [⟨true, "ab\x00cd".toList⟩] = "ab\n".toList := by decide

/-! ## Examples -/

/-- An operating system that allows everything, and a process with one file about. -/
def exOs : Os := ⟨fun _ => true, true, fun _ => "File exists".toList, []⟩
def exWorld : World :=
  ⟨"x\n".toList, [], fun q => if q = "old".toList then some "data".toList else none, none, none⟩

example : (run exOs exWorld [.print "first".toList, .tee "log".toList, .print "k = 3".toList,
    .printError "bad".toList, .print0]).files "log".toList = some "k = 3\nbad\n\n".toList := by
  decide

example : (run exOs exWorld [.tee "log".toList, .print "k = 3".toList, .printError "bad".toList]).out =
    "x\nk = 3\n".toList := by decide

example : exWorld.exited = none ∧ exWorld.teeing = none ∧
    exWorld.files ("log".toList.takeWhile (· ≠ '\x00')) = none ∧
    exOs.creatable ("log".toList.takeWhile (· ≠ '\x00')) = true ∧ exOs.fdopens = true := by decide

example : (run exOs exWorld [.tee "old".toList, .print "k".toList]).err =
    "\nerror: can't tee output to 'old': File exists\n".toList := by decide

example : (run exOs exWorld [.tee "a".toList, .print "k".toList, .tee "b".toList,
    .print "z".toList]).files "a".toList = some "k\n\nerror: can't tee to two files\n".toList := by
  decide

end Verif.Print
