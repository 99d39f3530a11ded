import Verif.IO.Fatal
import Mathlib.Tactic.Common

/-!
# C78: what is shown of an error that ends a program
-/

namespace Mandelbrot.Props
open Verif.Print

namespace Fatal

/-- The text with every `%` doubled. -/
def doubled (t : List Char) : List Char := t.flatMap fun c => if c = '%' then ['%', '%'] else [c]

/-- The rest of a format string starts with a conversion: a `%` that is not doubled. -/
def Conversion (q : List Char) : Prop := ∃ r, q = '%' :: r ∧ r.head? ≠ some '%'

end Fatal
open Fatal

theorem fatal_cstr {m : List Char} (h : '\x00' ∉ m) : cstr m = m := by
  unfold cstr
  induction m with
  | nil => rfl
  | cons c m ih =>
    rw [List.mem_cons, not_or] at h
    rw [List.takeWhile_cons_of_pos (by simpa using fun e => h.1 e.symm), ih h.2]

theorem fatal_doubled_cons (c : Char) (t : List Char) : doubled (c :: t) = (if c = '%' then ['%', '%'] else [c]) ++ doubled t := rfl

theorem fatal_literal_percent (r : List Char) : literal ('%' :: '%' :: r) = ('%' :: (literal r).1, (literal r).2) := by
  rw [literal, if_pos rfl, if_pos rfl]

theorem fatal_literal_other {c : Char} (h : c ≠ '%') (r : List Char) : literal (c :: r) = (c :: (literal r).1, (literal r).2) := by
  cases r with
  | nil => show (if c = '%' then _ else _) = _; rw [if_neg h]; rfl
  | cons d r => rw [literal, if_neg h]

theorem fatal_literal_stop {q : List Char} (h : q = [] ∨ Conversion q) : literal q = ([], q) := by
  rcases h with rfl | ⟨r, rfl, h⟩
  · rfl
  · cases r with
    | nil => rw [literal, if_pos rfl]
    | cons d r =>
      rw [literal, if_pos rfl, if_neg]
      rintro rfl
      exact h rfl

theorem fatal_literal_doubled (t : List Char) {q : List Char} (h : q = [] ∨ Conversion q) : literal (doubled t ++ q) = (t, q) := by
  induction t with
  | nil => exact fatal_literal_stop h
  | cons c t ih =>
    rw [fatal_doubled_cons]
    by_cases hc : c = '%'
    · subst hc
      rw [if_pos rfl]
      show literal ('%' :: '%' :: (doubled t ++ q)) = _
      rw [fatal_literal_percent, ih]
    · rw [if_neg hc]
      show literal (c :: (doubled t ++ q)) = _
      rw [fatal_literal_other hc, ih]

theorem fatal_split (m : List Char) : ∃ t q, m = doubled t ++ q ∧ (q = [] ∨ Conversion q) := by
  induction hn : m.length using Nat.strong_induction_on generalizing m with
  | _ n ih =>
    match m with
    | [] => exact ⟨[], [], rfl, Or.inl rfl⟩
    | c :: r =>
      by_cases hc : c = '%'
      · subst hc
        by_cases hd : r.head? = some '%'
        · obtain ⟨r', rfl⟩ : ∃ r', r = '%' :: r' := by
            cases r with
            | nil => simp at hd
            | cons d r' => exact ⟨r', by rw [List.head?_cons, Option.some.injEq] at hd; rw [hd]⟩
          obtain ⟨t, q, h1, h2⟩ := ih r'.length (by subst hn; simp only [List.length_cons]; omega) r' rfl
          exact ⟨'%' :: t, q, by rw [fatal_doubled_cons, if_pos rfl, h1]; rfl, h2⟩
        · exact ⟨[], '%' :: r, rfl, Or.inr ⟨r, rfl, hd⟩⟩
      · obtain ⟨t, q, h1, h2⟩ := ih r.length (by subst hn; simp) r rfl
        exact ⟨c :: t, q, by rw [fatal_doubled_cons, if_neg hc, h1]; rfl, h2⟩

/-- **C78.** A message given as the format string is shown exactly if each of its `%` is doubled, and then with single ones. -/
theorem C78_format (m t : List Char) : format0 false m = some t ↔ m = doubled t := by
  obtain ⟨s, q, rfl, hq⟩ := fatal_split m
  rw [format0, fatal_literal_doubled s hq]
  constructor
  · intro h
    split at h
    · rename_i h'
      rcases h' with h' | h'
      · obtain rfl : q = [] := h'
        rw [List.append_nil]
        exact congrArg doubled (Option.some.inj h)
      · cases h'
    · cases h
  · intro h
    have h1 := fatal_literal_doubled s hq
    have h2 := fatal_literal_doubled t (q := []) (Or.inl rfl)
    rw [List.append_nil, ← h, h1] at h2
    rw [if_pos (Or.inl (congrArg Prod.snd h2)), show s = t from congrArg Prod.fst h2]

/-- **C78.** Otherwise the program aborts, without showing anything. -/
theorem C78_abort (m : List Char) (w : World) (h0 : '\x00' ∉ m) :
    dieWhat false m w = none ↔ ∃ t q, m = doubled t ++ q ∧ Conversion q := by
  have hc : cstr m = m := fatal_cstr h0
  rw [dieWhat, hc, Option.map_eq_none_iff]
  obtain ⟨s, q, rfl, hq⟩ := fatal_split m
  rw [format0, fatal_literal_doubled s hq]
  constructor
  · intro h
    rcases hq with rfl | hq
    · rw [if_pos (Or.inl rfl)] at h; cases h
    · exact ⟨s, q, rfl, hq⟩
  · rintro ⟨t, p, h, hp⟩
    have h2 := fatal_literal_doubled t (Or.inr hp)
    rw [← h, fatal_literal_doubled s hq] at h2
    obtain rfl : q = p := congrArg Prod.snd h2
    obtain ⟨r, rfl, _⟩ := hp
    rw [if_neg (by rintro (h | h) <;> cases h)]

/-- **C78.** With assertions compiled out, the message is cut at the first `%` that is not doubled. -/
theorem C78_release (t q : List Char) (h : q = [] ∨ Conversion q) : format0 true (doubled t ++ q) = some t := by
  rw [format0, fatal_literal_doubled t h, if_pos (Or.inr rfl)]

theorem fatal_doubled_length (t : List Char) : (doubled t).length = t.length + t.count '%' := by
  induction t with
  | nil => rfl
  | cons c t ih =>
    rw [fatal_doubled_cons, List.length_append, ih, List.length_cons, List.count_cons]
    by_cases hc : c = '%'
    · subst hc; simp; omega
    · simp [hc]; omega

theorem fatal_doubled_self {t : List Char} (h : '%' ∉ t) : doubled t = t := by
  induction t with
  | nil => rfl
  | cons c t ih =>
    rw [List.mem_cons, not_or] at h
    rw [fatal_doubled_cons, if_neg (fun e => h.1 e.symm), ih h.2]; rfl

/-- **C78.** The format string comes out unchanged exactly if it has no `%`, in both kinds of build. -/
theorem C78_unchanged (nd : Bool) (m : List Char) : format0 nd m = some m ↔ '%' ∉ m := by
  constructor
  · intro h
    obtain ⟨s, q, rfl, hq⟩ := fatal_split m
    have h1 : s = doubled s ++ q := by
      rw [format0, fatal_literal_doubled s hq] at h
      split at h
      · exact Option.some.inj h
      · cases h
    have h2 := congrArg List.length h1
    rw [List.length_append, fatal_doubled_length] at h2
    have h3 : s.count '%' = 0 := by omega
    have h4 : q = [] := List.length_eq_zero_iff.mp (by omega)
    subst h4
    rw [← h1]
    exact List.count_eq_zero.mp h3
  · intro h
    have := fatal_literal_doubled m (q := []) (Or.inl rfl)
    rw [List.append_nil, fatal_doubled_self h] at this
    rw [format0, this, if_pos (Or.inl rfl)]

/-- **C78.** A message without `%` is shown in full on the standard error, after `error: `, the program ends with the code 1, and nothing goes to
the standard output. -/
theorem C78_full (nd : Bool) {m : List Char} (w : World) (h0 : '\x00' ∉ m) (h1 : m ≠ []) (h2 : '%' ∉ m) :
    ∃ w', dieWhat nd m w = some w' ∧ w'.exited = some 1 ∧ w'.err = w.err ++ ("\nerror: ".toList ++ m ++ ['\n']) ∧ w'.out = w.out := by
  have hc : cstr m = m := fatal_cstr h0
  have hl : cstr ("\nerror: ".toList ++ m) = "\nerror: ".toList ++ m := fatal_cstr fun hc => by
    rcases List.mem_append.mp hc with h | h
    · exact absurd h (by decide)
    · exact h0 h
  refine ⟨die m w, ?_, ?_, ?_, ?_⟩
  · rw [dieWhat, hc, (C78_unchanged nd m).mpr h2]; rfl
  · rfl
  · unfold die
    rw [if_pos (by simpa using h1)]
    unfold printError teePrint
    rw [line, hl]
    cases hw : w.teeing <;> simp
  · unfold die
    rw [if_pos (by simpa using h1)]
    unfold printError teePrint
    cases hw : w.teeing <;> simp

theorem fatal_named (nd : Bool) (what name : List Char) :
    formatS nd ['%', 's', ' ', '(', '%', 's', ')'] [what, name] = some (what ++ ([' ', '('] ++ name ++ [')'])) := by
  have e1 : literal ['%', 's', ' ', '(', '%', 's', ')'] = ([], ['%', 's', ' ', '(', '%', 's', ')']) := by decide
  have e2 : literal [' ', '(', '%', 's', ')'] = ([' ', '('], ['%', 's', ')']) := by decide
  have e3 : literal [')'] = ([')'], []) := by decide
  rw [formatS, e1]
  simp only [formatS, e2, format0, e3]
  simp

/-- **C78.** The code generator shows every message in full, also with `%`. -/
theorem C78_named (nd : Bool) {what name : List Char} (w : World) (h0 : '\x00' ∉ what) (h1 : '\x00' ∉ name) :
    dieNamed nd what name w = some (die (what ++ ([' ', '('] ++ name ++ [')'])) w) := by
  rw [dieNamed, fatal_cstr h0, fatal_cstr h1, fatal_named]; rfl

/-- **C78.** A failed assertion is shown in full exactly if there is no `%` in the path of the source, the name of the function, the message and
the condition. -/
theorem C78_assertion (nd : Bool) (file line function message condition : List Char) (hl : '%' ∉ line) :
    let t := assertionText file line function message condition
    format0 nd t = some t ↔ '%' ∉ file ∧ '%' ∉ function ∧ '%' ∉ message ∧ '%' ∉ condition := by
  simp only
  rw [C78_unchanged, assertionText]
  by_cases hm : message = []
  · subst hm
    simp only [List.length_nil, ne_eq, not_true_eq_false, if_false, List.mem_append, List.mem_cons, not_or]
    simp [hl]
    tauto
  · rw [if_pos (by simpa using hm)]
    simp only [List.mem_append, List.mem_cons, not_or]
    simp [hl]
    tauto

/-- **C78.** Writing to `50%.npy`, which exists, ends `series-to-npy` by `abort` without a message; with assertions compiled out, the message
is cut after `50`. -/
theorem C78_percent_witness (w : World) (file line function condition : List Char) (h0 : '\x00' ∉ file ++ line ++ function ++ condition)
    (h1 : '%' ∉ file ++ line ++ function) :
    dieWhat false (assertionText file line function "50%.npy exists".toList condition) w = none ∧
      format0 true (assertionText file line function "50%.npy exists".toList condition) =
        some (file ++ ':' :: line ++ ':' :: function ++ ':' :: ' ' :: "50".toList) := by
  simp only [List.mem_append, not_or] at h0 h1
  have key : assertionText file line function "50%.npy exists".toList condition =
      doubled (file ++ ':' :: line ++ ':' :: function ++ ':' :: ' ' :: "50".toList) ++
        ('%' :: (".npy exists".toList ++ ", condition = ".toList ++ condition)) := by
    rw [fatal_doubled_self]
    · rw [assertionText, if_pos (by decide), show "50%.npy exists".toList = "50".toList ++ '%' :: ".npy exists".toList by decide]
      simp only [List.append_assoc, List.cons_append]
    · have : '%' ∉ "50".toList := by decide
      simp only [List.mem_append, List.mem_cons, not_or]
      exact ⟨⟨⟨h1.1.1, by decide, h1.1.2⟩, by decide, h1.2⟩, by decide, by decide, this⟩
  have hq : Conversion ('%' :: (".npy exists".toList ++ ", condition = ".toList ++ condition)) :=
    ⟨_, rfl, by
      rw [show ".npy exists".toList = '.' :: "npy exists".toList by decide]
      simp⟩
  refine ⟨(C78_abort _ w ?_).mpr ⟨_, _, key, hq⟩, by rw [key]; exact C78_release _ _ (Or.inr hq)⟩
  have c1 : '\x00' ∉ "50%.npy exists".toList := by decide
  have c2 : '\x00' ∉ ", condition = ".toList := by decide
  rw [assertionText, if_pos (by decide)]
  simp only [List.mem_append, List.mem_cons, not_or]
  exact ⟨⟨⟨⟨⟨h0.1.1.1, by decide, h0.1.1.2⟩, by decide, h0.1.2⟩, by decide, by decide, c1⟩, c2⟩, h0.2⟩

/-! ## Cases -/

/-- A message with two doubled `%`. -/
example : format0 false "5%% of 7%%".toList = some "5% of 7%".toList := (C78_format _ _).mpr (by decide)

/-- A message that ends with `%`. -/
example (w : World) : dieWhat false "100%".toList w = none :=
  (C78_abort _ w (by decide)).mpr ⟨"100".toList, ['%'], by decide, [], rfl, by simp⟩

/-- A message in full. -/
example (w : World) : ∃ w', dieWhat false "a.npy exists".toList w = some w' ∧ w'.exited = some 1 := by
  obtain ⟨w', h1, h2, _⟩ := C78_full false (m := "a.npy exists".toList) w (by decide) (by decide) (by decide)
  exact ⟨w', h1, h2⟩

/-- A condition with the remainder operator is not shown in full. -/
example : format0 false (assertionText "a.cc".toList "7".toList "f()".toList [] "n % 2 == 0".toList) ≠
    some (assertionText "a.cc".toList "7".toList "f()".toList [] "n % 2 == 0".toList) := fun h =>
  absurd ((C78_assertion false _ _ _ _ _ (by decide)).mp h).2.2.2 (by decide)

end Mandelbrot.Props
