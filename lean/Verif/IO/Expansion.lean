import Verif.IO.ReadBack

/-!
# Expansions as text (/repo/expansion.cc 62-99, /repo/span.h 13-21)

`D` are the doubles up to `==`.  An expansion is the list of its parts.
-/

namespace Mandelbrot.IO

variable {D : Type}

/-- /repo/span.h 13-21: printing of a span; `fmt` prints one double with `%.17g`. -/
def spanText (fmt : D → Str) (x : List D) : Str := kw "[" ++ (kw ", ").intercalate (x.map fmt) ++ kw "]"

/-- /repo/expansion.cc 82-89: the loop of the string constructor over the parts still to come, then the check that all was
used.  `strtod` gives the number and what follows it, or nothing if there is no number. -/
def readParts (strtod : Str → Option (D × Str)) : ℕ → Str → Res (List D)
  | 0, p => do
    slowAssert (p = [])
    return []
  | i + 1, p =>
    match strtod p with
    | none => .error .assertion
    | some (d, e) => do
      slowAssert (e.head? = some (if i ≠ 0 then ',' else ']'))
      let r ← readParts strtod i e.tail
      return d :: r

/-- /repo/expansion.cc 78-99: the string constructor; `nice` is the branch for plain decimal numbers. -/
def readExpansion (strtod : Str → Option (D × Str)) (nice : Str → Res (List D)) (n : ℕ) (s : Str) : Res (List D) :=
  match s with
  | [] => .error .assertion
  | c :: s' => if c = '[' then readParts strtod n s' else nice s

/-- /repo/expansion.cc 62-69 `maybe_nice_safe`: `texts` are the decimal texts of increasing precision. -/
def maybeNice [DecidableEq D] (strtod : Str → Option (D × Str)) (nice : Str → Res (List D)) (n : ℕ) (x : List D) :
    List Str → Res Str
  | [] => .ok []
  | s :: ss => do
    let y ← readExpansion strtod nice n s
    if x = y then return s else maybeNice strtod nice n x ss

/-- /repo/expansion.cc 71-74 `safe`; `decimal p x` is `%.*g` of the exact value (/repo/expansion.cc 63-65). -/
def safeText [DecidableEq D] (fmt : D → Str) (decimal : ℕ → List D → Str) (strtod : Str → Option (D × Str))
    (nice : Str → Res (List D)) (n : ℕ) (x : List D) : Res Str := do
  let s ← maybeNice strtod nice n x ((List.range' (15 * n - 2) (15 * n + 3)).map (decimal · x))
  return if s ≠ [] then s else spanText fmt x

/-- What is asked of `printf` and `strtod` for doubles: reading stops at a comma or bracket, and skips a blank. -/
structure DoubleCodec (fmt : D → Str) (strtod : Str → Option (D × Str)) (d : D) : Prop where
  back : ∀ c rest, c = ',' ∨ c = ']' → strtod (fmt d ++ c :: rest) = some (d, c :: rest)
  line : '\n' ∉ fmt d

theorem readParts_span {fmt : D → Str} {strtod : Str → Option (D × Str)} (hsp : ∀ s, strtod (' ' :: s) = strtod s)
    {x : List D} (hx : ∀ d ∈ x, DoubleCodec fmt strtod d) (h0 : x ≠ []) :
    readParts strtod x.length ((kw ", ").intercalate (x.map fmt) ++ kw "]") = .ok x := by
  induction x with
  | nil => exact absurd rfl h0
  | cons d x ih =>
    cases x with
    | nil =>
      have := (hx d (by simp)).back ']' [] (Or.inr rfl)
      simp only [List.map_cons, List.map_nil, List.intercalate_singleton, List.length_cons, List.length_nil, readParts]
      rw [show fmt d ++ kw "]" = fmt d ++ ']' :: [] from rfl, this]
      simp only []
      rw [slowAssert_true (by simp), bok, List.tail_cons, slowAssert_true rfl, bok, pok, bok, pok]
    | cons d' x =>
      have h1 := ih (fun e he => hx e (List.mem_cons_of_mem _ he)) (by simp)
      have h2 := (hx d (by simp)).back ',' (' ' :: ((kw ", ").intercalate ((d' :: x).map fmt) ++ kw "]")) (Or.inl rfl)
      have h3 : (kw ", ").intercalate ((d :: d' :: x).map fmt) ++ kw "]" =
          fmt d ++ ',' :: ' ' :: ((kw ", ").intercalate ((d' :: x).map fmt) ++ kw "]") := by
        rw [List.map_cons, List.map_cons, List.intercalate_cons_cons]
        simp [kw]
      rw [List.length_cons, readParts, h3, h2]
      simp only []
      rw [slowAssert_true (by simp), bok, List.tail_cons]
      have h4 : readParts strtod (d' :: x).length (' ' :: ((kw ", ").intercalate ((d' :: x).map fmt) ++ kw "]")) =
          .ok (d' :: x) := by
        rw [← h1, List.length_cons, readParts, readParts, hsp]
      rw [h4, bok, pok]

theorem maybeNice_ok [DecidableEq D] {strtod : Str → Option (D × Str)} {nice : Str → Res (List D)} {n : ℕ} {x : List D}
    {ss : List Str} {s : Str} (h : maybeNice strtod nice n x ss = .ok s) :
    s = [] ∨ s ∈ ss ∧ readExpansion strtod nice n s = .ok x := by
  induction ss with
  | nil => cases h; exact Or.inl rfl
  | cons t ss ih =>
    rw [maybeNice] at h
    cases e : readExpansion strtod nice n t with
    | error e' => rw [e] at h; cases h
    | ok y =>
      rw [e, bok] at h
      split_ifs at h with hxy
      · cases h
        subst hxy
        exact Or.inr ⟨by simp, e⟩
      · rcases ih h with h | ⟨h1, h2⟩
        · exact Or.inl h
        · exact Or.inr ⟨by simp [h1], h2⟩

end Mandelbrot.IO
