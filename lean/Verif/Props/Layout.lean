import Verif.Sym.Layout

/-!
# C75: generated files are laid out as nested scopes, also when generation fails, and written where they are asked for
-/

namespace Mandelbrot.Props
open Mandelbrot.Sym.Layout

namespace LSpec

/-- The lines of a document at a depth, and whether it runs to its end.  Nothing global: the depth is handed down. -/
def lines : ℕ → Doc → List Line × Bool
  | _, .skip => ([], true)
  | d, .seq a b => if (lines d a).2 then ((lines d a).1 ++ (lines d b).1, (lines d b).2) else ((lines d a).1, false)
  | d, .text s => ([List.replicate d ' ' ++ s], true)
  | _, .blank => ([[]], true)
  | _, .fail => ([], false)
  | d, .scope close opening body =>
    ((List.replicate d ' ' ++ opening) :: ((lines (d + 2) body).1 ++ [List.replicate d ' ' ++ close]), (lines (d + 2) body).2)
  | d, .spaced body => ((lines d body).1 ++ [[]], (lines d body).2)
  | d, .block whole part body =>
    ((lines d body).1 ++ [List.replicate d ' ' ++ if (lines d body).2 then whole else part], (lines d body).2)

/-- The first line of a generated file. -/
def title : Kind → String
  | .expansion => "// Expansion arithmetic codelets"
  | .mul => "// Multiplication and squaring base cases"
  | .series => "// Series function base cases"
  | .butterflies => "// Fourier transform base cases"

/-- The includes of a generated file. -/
def needs : Kind → List String
  | .expansion => []
  | .mul => ["#include \"loops.h\""]
  | .series => ["#include \"loops.h\""]
  | .butterflies => ["#include \"loops.h\""]

/-- The text of a whole generated file. -/
def file (k : Kind) (body : Doc) : List Line :=
  (title k).toList :: "// Autogenerated by codelets.cc".toList :: "#pragma once".toList :: [] ::
    ((needs k).map String.toList ++ ("namespace mandelbrot {".toList :: [] :: ((lines 0 body).1 ++ ["}  // namespace mandelbrot".toList])))

/-- The end of the name of the file each generator is for. -/
def suffix : Kind → String
  | .expansion => "gen-expansion.h"
  | .mul => "gen-mul-bases.h"
  | .series => "gen-series-bases.h"
  | .butterflies => "gen-butterflies.h"

/-- The way a run of the document ends. -/
def ending (b : Bool) : Out := if b then .done else .threw

/-- The jobs that are started: those up to the first that fails. -/
def started : List (Path × (Kind → Doc)) → List (Path × Kind × Doc)
  | [] => []
  | (p, body) :: ps =>
    match kindOf p with
    | none => []
    | some k => (p, k, body k) :: if (lines 0 (body k)).2 then started ps else []

/-- Every path has a generator, and every generator runs to its end. -/
def AllGood (ps : List (Path × (Kind → Doc))) : Prop :=
  ∀ q ∈ ps, ∃ k, (suffix k).toList <:+ q.1 ∧ (lines 0 (q.2 k)).2 = true

/-- What a path holds after the jobs: the text of the last job for it, or what it held before. -/
def content (W : Path → Bool) (f : Path → Option (List Line)) (jobs : List (Path × Kind × Doc)) (p : Path) : Option (List Line) :=
  match jobs.reverse.find? fun j => j.1 == p with
  | some j => if W p then some (file j.2.1 j.2.2) else f p
  | none => f p

end LSpec
open LSpec

variable {W : Path → Bool}

/-- Lines appended to a file. -/
def puts (W : Path → Bool) (p : Path) (l : List Line) (f : Path → Option (List Line)) : Path → Option (List Line) :=
  l.foldl (fun f s => put W p s f) f

theorem puts_append (p : Path) (l m : List Line) (f : Path → Option (List Line)) : puts W p (l ++ m) f = puts W p m (puts W p l f) := by
  simp [puts]

theorem puts_eq (p : Path) (l : List Line) (f : Path → Option (List Line)) (hl : l ≠ []) :
    puts W p l f = if W p then Function.update f p (some ((f p).getD [] ++ l)) else f := by
  induction l generalizing f with
  | nil => exact absurd rfl hl
  | cons s l ih =>
    show puts W p l (put W p s f) = _
    by_cases h : l = []
    · subst h; rfl
    · rw [ih _ h]
      unfold put
      by_cases hw : W p
      · simp [hw]
      · simp [hw]

theorem exec_lines (p : Path) : ∀ (D : Doc) (st : St), st.out = some p →
    exec W D st = ({ st with files := puts W p (lines st.indent D).1 st.files }, ending (lines st.indent D).2) := by
  intro D
  induction D with
  | skip => intro st _; rfl
  | seq a b iha ihb =>
    intro st h
    simp only [exec, lines]
    rw [iha st h]
    cases ha : (lines st.indent a).2 with
    | false => rfl
    | true =>
      simp only [ending, if_true]
      rw [ihb { st with files := puts W p (lines st.indent a).1 st.files } h, puts_append]
      rfl
  | text s => intro st h; simp only [exec, line, h, lines]; rfl
  | blank => intro st h; simp only [exec, line0, h, lines]; rfl
  | fail => intro st _; rfl
  | scope close opening body ih =>
    intro st h
    simp only [exec, line, h, lines]
    rw [ih _ rfl]
    cases hb : (lines (st.indent + 2) body).2 with
    | false => simp [ending, destroy, puts]
    | true => simp [ending, destroy, puts]
  | spaced body ih =>
    intro st h
    simp only [exec, lines]
    rw [ih st h]
    cases hb : (lines st.indent body).2 <;> simp [ending, destroy, line0, h, puts]
  | block whole part body ih =>
    intro st h
    simp only [exec, lines]
    rw [ih st h]
    cases hb : (lines st.indent body).2 <;> simp [ending, destroy, line, h, puts]

/-- **C75.** Whatever is executed while a file is open, the lines are those of the nested layout at the current indentation, in the
open file if it could be opened and nowhere else; the indentation and the open file are the same afterwards, also after an exception;
`terminate` is never called. -/
theorem C75_exec {st : St} {p : Path} (h : st.out = some p) (D : Doc) : ∃ f,
    exec W D st = ({ st with files := f }, ending (lines st.indent D).2) ∧ (∀ q, q ≠ p → f q = st.files q) ∧
      (f p).getD [] = (st.files p).getD [] ++ if W p then (lines st.indent D).1 else [] := by
  refine ⟨_, exec_lines p D st h, ?_⟩
  by_cases hl : (lines st.indent D).1 = []
  · rw [hl]
    exact ⟨fun _ _ => rfl, by simp [puts]⟩
  · rw [puts_eq p _ _ hl]
    by_cases hw : W p
    · exact ⟨fun q hq => by simp [hw, Function.update_of_ne hq], by simp [hw]⟩
    · exact ⟨fun _ _ => by simp [hw], by simp [hw]⟩

/-- **C75.** Without an open file the first line asked for throws; in a destructor that ends the process. -/
theorem C75_no_file {st : St} (h : st.out = none) (s : Line) (D : Doc) : exec W (.seq (.text s) D) st = (st, .threw) ∧
    exec W (.seq .blank D) st = (st, .threw) ∧ exec W (.spaced .skip) st = (st, .terminated) := by
  simp [exec, line, line0, destroy, h]

theorem layout_lines_indent : ∀ (D : Doc) (d : ℕ), ∀ l ∈ (lines d D).1, l = [] ∨ List.replicate d ' ' <+: l := by
  intro D
  induction D with
  | skip => intro d l hl; simp [lines] at hl
  | seq a b iha ihb =>
    intro d l hl
    simp only [lines] at hl
    split at hl
    · rcases List.mem_append.mp hl with hl | hl
      · exact iha d l hl
      · exact ihb d l hl
    · exact iha d l hl
  | text s => intro d l hl; simp only [lines, List.mem_singleton] at hl; subst hl; exact .inr (List.prefix_append _ _)
  | blank => intro d l hl; simp only [lines, List.mem_singleton] at hl; exact .inl hl
  | fail => intro d l hl; simp [lines] at hl
  | scope close opening body ih =>
    intro d l hl
    simp only [lines, List.mem_cons, List.mem_append, List.not_mem_nil, or_false] at hl
    rcases hl with rfl | hl | rfl
    · exact .inr (List.prefix_append _ _)
    · rcases ih (d + 2) l hl with h | h
      · exact .inl h
      · refine .inr (List.IsPrefix.trans ?_ h)
        rw [List.replicate_add]; exact List.prefix_append _ _
    · exact .inr (List.prefix_append _ _)
  | spaced body ih =>
    intro d l hl
    simp only [lines, List.mem_append, List.mem_singleton] at hl
    rcases hl with hl | rfl
    · exact ih d l hl
    · exact .inl rfl
  | block whole part body ih =>
    intro d l hl
    simp only [lines, List.mem_append, List.mem_singleton] at hl
    rcases hl with hl | rfl
    · exact ih d l hl
    · exact .inr (List.prefix_append _ _)

/-- **C75.** Every scope that is opened is closed, at the indentation at which it was opened, and every line in between is empty or
indented by at least two more; also if an exception ends the scope. -/
theorem C75_scope {st : St} {p : Path} (h : st.out = some p) (hw : W p = true) (close opening : Line) (body : Doc) :
    ∃ mid : List Line, ((exec W (.scope close opening body) st).1.files p).getD [] = (st.files p).getD [] ++
        (List.replicate st.indent ' ' ++ opening) :: (mid ++ [List.replicate st.indent ' ' ++ close]) ∧
      ∀ l ∈ mid, l = [] ∨ List.replicate (st.indent + 2) ' ' <+: l := by
  obtain ⟨f, e, _, hf⟩ := C75_exec (W := W) h (.scope close opening body)
  refine ⟨(lines (st.indent + 2) body).1, ?_, layout_lines_indent body _⟩
  rw [e]
  simpa [hw, lines] using hf

theorem layout_includes : ∀ inc : List Line, lines 0 (inc.foldr (fun i d => .seq (.text (incOpen ++ i ++ incClose)) d) .skip) =
    (inc.map (fun i => incOpen ++ i ++ incClose), true)
  | [] => rfl
  | i :: inc => by
    simp only [List.foldr_cons, lines, layout_includes inc, List.map_cons, List.replicate_zero, List.nil_append, if_true, List.singleton_append]

theorem layout_header (comment : Line) (inc : List Line) : lines 0 (headerLines comment inc) =
    ((slashes ++ comment) :: autogenerated :: pragmaOnce :: [] ::
      (inc.map (fun i => incOpen ++ i ++ incClose) ++ [namespaceOpen, []]), true) := by
  simp only [headerLines, lines, layout_includes, List.replicate_zero, List.nil_append, if_true, List.singleton_append]

theorem layout_title (k : Kind) : slashes ++ k.comment = (title k).toList := by
  cases k <;> (unfold slashes Kind.comment title; rw [← String.toList_append]; exact congrArg String.toList (by decide))

theorem layout_needs (k : Kind) : k.includes.map (fun i => incOpen ++ i ++ incClose) = (needs k).map String.toList := by
  have e1 : incOpen ++ "loops.h".toList ++ incClose = "#include \"loops.h\"".toList := by
    unfold incOpen incClose
    rw [← String.toList_append, ← String.toList_append]
    exact congrArg String.toList (by decide)
  cases k
  · rfl
  all_goals
    unfold Kind.includes needs
    rw [List.map_cons, List.map_cons, e1, List.map_nil, List.map_nil]

theorem layout_file (k : Kind) (body : Doc) :
    (lines 0 (headerLines k.comment k.includes)).1 ++ ((lines 0 body).1 ++ [namespaceClose]) = file k body := by
  rw [layout_header, layout_title, layout_needs]
  unfold file
  rw [← show namespaceOpen = "namespace mandelbrot {".toList from rfl, ← show namespaceClose = "}  // namespace mandelbrot".toList from rfl,
    ← show autogenerated = "// Autogenerated by codelets.cc".toList from rfl, ← show pragmaOnce = "#pragma once".toList from rfl]
  simp only [List.cons_append, List.append_assoc, List.nil_append]

/-- **C75.** A generator writes its whole file and closes it.  If an exception ends it, the file holds the lines so far, with all scopes
and the namespace closed.  No other file changes. -/
theorem C75_file {st : St} (h : st.out = none) (hi : st.indent = 0) (p : Path) (k : Kind) (body : Doc) :
    withHeader W p k.comment k.includes body st =
      ({ st with files := if W p then Function.update st.files p (some (file k body)) else st.files }, ending (lines 0 body).2) := by
  have key : put W p namespaceClose (puts W p (lines 0 body).1 (puts W p (lines 0 (headerLines k.comment k.includes)).1
      (if W p then Function.update st.files p (some []) else st.files))) =
      if W p then Function.update st.files p (some (file k body)) else st.files := by
    have : ∀ g, put W p namespaceClose g = puts W p [namespaceClose] g := fun _ => rfl
    rw [this, ← puts_append, ← puts_append, layout_file, puts_eq p _ _ (by rw [← layout_file, layout_header]; exact List.cons_ne_nil _ _)]
    by_cases hw : W p
    · simp [hw]
    · simp [hw]
  have hd : (lines 0 (headerLines k.comment k.includes)).2 = true := by rw [layout_header]
  unfold withHeader
  rw [h]
  simp only
  rw [exec_lines p _ _ rfl]
  simp only [hi, hd, ending, if_true]
  rw [exec_lines p _ _ rfl]
  simp only
  cases hb : (lines 0 body).2 with
  | false => simp only [ending, destroy, line, List.replicate_zero, List.nil_append, Bool.false_eq_true, if_false, key]
  | true => simp only [ending, destroy, line, List.replicate_zero, List.nil_append, if_true, key]

/-- **C75.** A second file is not opened while one is open. -/
theorem C75_one_file {st : St} {q : Path} (h : st.out = some q) (p : Path) (k : Kind) (body : Doc) :
    withHeader W p k.comment k.includes body st = (st, .threw) := by
  unfold withHeader
  rw [h]

/-- **C75.** The end of a path decides on the generator; no path fits two of them. -/
theorem C75_kind (p : Path) (k : Kind) : kindOf p = some k ↔ (suffix k).toList <:+ p := by
  have excl : ∀ a b : Kind, a ≠ b → (suffix a).toList <:+ p → ¬(suffix b).toList <:+ p := by
    intro a b hab ha hb
    rcases List.suffix_or_suffix_of_suffix ha hb with h | h
    · revert h hab; cases a <;> cases b <;> decide
    · revert h hab; cases a <;> cases b <;> decide
  have e1 := fun h => excl .expansion k h
  have e2 := fun h => excl .mul k h
  have e3 := fun h => excl .series k h
  unfold kindOf
  split_ifs with h1 h2 h3 h4
  · cases k <;> simp [suffix] at * <;> first | exact h1 | exact e1 h1
  · cases k <;> simp [suffix] at * <;> first | exact h1 | exact h2 | exact e2 h2
  · cases k <;> simp [suffix] at * <;> first | exact h1 | exact h2 | exact h3 | exact e3 h3
  · cases k <;> simp [suffix] at * <;> first | exact h1 | exact h2 | exact h3 | exact h4
  · cases k <;> simp [suffix] at * <;> first | exact h1 | exact h2 | exact h3 | exact h4

theorem layout_content_cons (f : Path → Option (List Line)) (p : Path) (k : Kind) (b : Doc) (js : List (Path × Kind × Doc)) :
    content W f ((p, k, b) :: js) = content W (if W p then Function.update f p (some (file k b)) else f) js := by
  funext q
  unfold content
  rw [List.reverse_cons, List.find?_append]
  cases h : js.reverse.find? fun j => j.1 == q with
  | some j =>
    simp only [Option.some_or]
    by_cases hq : W q
    · simp [hq]
    · simp only [hq, Bool.false_eq_true, if_false]
      by_cases hp : W p
      · have : q ≠ p := by rintro rfl; exact hq hp
        simp [hp, Function.update_of_ne this]
      · simp [hp]
  | none =>
    simp only [Option.none_or]
    by_cases hpq : p = q
    · subst hpq
      by_cases hp : W p <;> simp [hp]
    · have h1 : (p == q) = false := by simpa using hpq
      have h2 : q ≠ p := fun h => hpq h.symm
      by_cases hp : W p <;> simp [h1, hp, Function.update_of_ne h2]

/-- **C75.** The program handles its paths from the first to the last.  It succeeds exactly if every path has a generator and every
generator runs to its end, otherwise it stops with an error at the first path for which this fails.  A path that is started and can be
written holds the file of its generator, whichever directory it is in; every other file is as it was. -/
theorem C75_main : ∀ (ps : List (Path × (Kind → Doc))) (st : St), st.out = none → st.indent = 0 →
    (main W ps st).1 = { st with files := content W st.files (started ps) } ∧
      ((main W ps st).2 = .success ↔ AllGood ps) ∧ ((main W ps st).2 = .failure ↔ ¬AllGood ps)
  | [], st, _, _ => ⟨rfl, by simp [main, AllGood], by simp [main, AllGood]⟩
  | (p, body) :: ps, st, h, hi => by
    have hcons : AllGood ((p, body) :: ps) ↔ (∃ k, kindOf p = some k ∧ (lines 0 (body k)).2 = true) ∧ AllGood ps := by
      unfold AllGood
      simp only [List.forall_mem_cons, C75_kind]
    cases hk : kindOf p with
    | none =>
      have hm : main W ((p, body) :: ps) st = (st, .failure) := by simp only [main, hk]
      have hbad : ¬AllGood ((p, body) :: ps) := by rw [hcons]; simp [hk]
      rw [hm]
      refine ⟨?_, by simp [hbad], by simp [hbad]⟩
      simp only [started, hk]
      rfl
    | some k =>
      have hf := C75_file (W := W) h hi p k (body k)
      cases hb : (lines 0 (body k)).2 with
      | false =>
        have hbad : ¬AllGood ((p, body) :: ps) := by rw [hcons]; simp [hk, hb]
        have hm : main W ((p, body) :: ps) st =
            ({ st with files := if W p then Function.update st.files p (some (file k (body k))) else st.files }, .failure) := by
          simp only [main, hk, hf, hb, ending, Bool.false_eq_true, if_false]
        rw [hm]
        refine ⟨?_, by simp [hbad], by simp [hbad]⟩
        simp only [started, hk, hb, Bool.false_eq_true, if_false]
        rw [layout_content_cons]
        rfl
      | true =>
        have hgood : AllGood ((p, body) :: ps) ↔ AllGood ps := by rw [hcons]; simp [hk, hb]
        have hm : main W ((p, body) :: ps) st =
            main W ps { st with files := if W p then Function.update st.files p (some (file k (body k))) else st.files } := by
          simp only [main, hk, hf, hb, ending, if_true]
        obtain ⟨i1, i2, i3⟩ := C75_main ps
          { st with files := if W p then Function.update st.files p (some (file k (body k))) else st.files } h hi
        rw [hm, hgood]
        refine ⟨?_, i2, i3⟩
        rw [i1]
        simp only [started, hk, hb, if_true]
        rw [layout_content_cons]

/-- **C75.** A path that cannot be written is not noticed: the program reports success and has written nothing. -/
theorem C75_unwritable_witness (p : Path) (hp : "gen-mul-bases.h".toList <:+ p) (st : St) (h : st.out = none) (hi : st.indent = 0) :
    main (fun _ => false) [(p, fun _ => .skip)] st = (st, .success) := by
  have hk := (C75_kind p .mul).mpr hp
  have hf := C75_file (W := fun _ => false) h hi p .mul .skip
  simp only [main, hk, hf]
  rfl

/-- A scope within a scope, with a line after each opening. -/
def nestedDoc (last : Doc) : Doc :=
  .spaced (.scope ")".toList "f(".toList (.block "// 2 ops".toList "// 1 op".toList
    (.seq (.text "a".toList) (.seq (.scope "}".toList "if {".toList (.seq .blank (.text "b".toList))) last))))

/-- The nested scopes in a file that is open, ended by an exception before the last line. -/
example (st : St) (h : st.out = some "x".toList) (hi : st.indent = 0) (hf : st.files "x".toList = none) :
    (exec (fun _ => true) (nestedDoc .fail) st).2 = .threw ∧ (exec (fun _ => true) (nestedDoc .fail) st).1.indent = 0 ∧
      ((exec (fun _ => true) (nestedDoc .fail) st).1.files "x".toList).getD [] =
        ["f(".toList, "  a".toList, "  if {".toList, [], "    b".toList, "  }".toList, "  // 1 op".toList, ")".toList, []] := by
  obtain ⟨f, e, _, hx⟩ := C75_exec (W := fun _ => true) h (nestedDoc .fail)
  rw [e]
  refine ⟨by rw [hi]; rfl, hi, ?_⟩
  rw [hi, hf] at hx
  rw [hx]
  decide

/-- Two paths of which the second has no generator. -/
example (st : St) (h : st.out = none) (hi : st.indent = 0) (b : Kind → Doc) (hb : b .mul = nestedDoc .skip) :
    (main (fun _ => true) [("d/gen-mul-bases.h".toList, b), ("gen.h".toList, b)] st).2 = .failure ∧
      (main (fun _ => true) [("d/gen-mul-bases.h".toList, b), ("gen.h".toList, b)] st).1.files "d/gen-mul-bases.h".toList =
        some (file .mul (nestedDoc .skip)) := by
  obtain ⟨h1, _, h3⟩ := C75_main (W := fun _ => true) [("d/gen-mul-bases.h".toList, b), ("gen.h".toList, b)] st h hi
  have k1 : kindOf "d/gen-mul-bases.h".toList = some .mul := by decide
  have k2 : kindOf "gen.h".toList = none := by decide
  refine ⟨h3.mpr fun hg => ?_, ?_⟩
  · obtain ⟨k, hk, _⟩ := hg ("gen.h".toList, b) (by simp)
    have := (C75_kind _ k).mpr hk
    rw [k2] at this
    cases this
  · rw [h1]
    have hs : started [("d/gen-mul-bases.h".toList, b), ("gen.h".toList, b)] = [("d/gen-mul-bases.h".toList, .mul, nestedDoc .skip)] := by
      simp only [started, k1, k2, hb, ite_self]
    rw [hs]
    simp [content]

end Mandelbrot.Props
