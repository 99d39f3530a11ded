import Verif.IO.Text
import Verif.Loops.Lemmas
import Mathlib.Tactic.IntervalCases

/-!
# Facts about the text format
-/

namespace Mandelbrot.IO

/-! ## Lines -/

theorem getlines_line {l : Str} (h : '\n' ∉ l) (s : Str) : getlines (l ++ '\n' :: s) = l :: getlines s := by
  induction l with
  | nil => simp [getlines]
  | cons c l ih =>
    simp only [List.mem_cons, not_or] at h
    rw [List.cons_append, getlines, if_neg (Ne.symm h.1), ih h.2]

theorem getlines_last {l : Str} (h : '\n' ∉ l) (h0 : l ≠ []) : getlines l = [l] := by
  induction l with
  | nil => exact absurd rfl h0
  | cons c l ih =>
    simp only [List.mem_cons, not_or] at h
    rw [getlines, if_neg (Ne.symm h.1)]
    by_cases h1 : l = []
    · subst h1; rfl
    · rw [ih h.2 h1]

theorem getlines_lines (ls : List Str) (h : ∀ l ∈ ls, '\n' ∉ l) (s : Str) :
    getlines (ls.flatMap (fun l => l ++ ['\n']) ++ s) = ls ++ getlines s := by
  induction ls with
  | nil => rfl
  | cons l ls ih =>
    rw [List.flatMap_cons, List.append_assoc, List.append_assoc, List.singleton_append,
      getlines_line (h l (by simp)), ih fun l' hl' => h l' (by simp [hl']), List.cons_append]

theorem readLines_append {K : Type} (parse : Str → Res K) (J : Junk K) (a b : List Str) (st : Rd K) :
    readLines parse J (a ++ b) st = readLines parse J a st >>= readLines parse J b := by
  induction a generalizing st with
  | nil => rfl
  | cons l a ih =>
    rw [List.cons_append, readLines, readLines]
    cases readLine parse J st l with
    | error e => rfl
    | ok st' => simp only [bok]; exact ih st'

/-! ## Trimming -/

theorem trim_nonspace {c : Char} (h : isSpace c = false) (s : Str) : trim (c :: s) = c :: s := by
  rw [trim, List.dropWhile_cons_of_neg (by simp [h])]

theorem trim_space (s : Str) : trim (' ' :: s) = trim s := by
  rw [trim, List.dropWhile_cons_of_pos (by decide), trim]

theorem trim_prefix {a b : Str} (h : a <+: b) (h0 : trim a ≠ []) : trim a <+: trim b := by
  induction a generalizing b with
  | nil => exact absurd rfl h0
  | cons c a ih =>
    obtain ⟨t, rfl⟩ := h
    rw [trim, trim, List.cons_append] at *
    by_cases hc : isSpace c = true
    · rw [List.dropWhile_cons_of_pos hc] at h0 ⊢
      rw [List.dropWhile_cons_of_pos hc]
      exact ih ⟨t, rfl⟩ h0
    · rw [List.dropWhile_cons_of_neg hc, List.dropWhile_cons_of_neg hc]
      exact ⟨t, rfl⟩

/-! ## Numbers -/

theorem digitVal_ofNat {d : ℕ} (h : d < 10) : digitVal (Char.ofNat (48 + d)) = some d := by
  interval_cases d <;> decide

theorem isSpace_ofNat {d : ℕ} (h : d < 10) : isSpace (Char.ofNat (48 + d)) = false := by
  interval_cases d <;> decide

theorem ofNat_ne {d : ℕ} (h : d < 10) : Char.ofNat (48 + d) ≠ '-' ∧ Char.ofNat (48 + d) ≠ '+' ∧ Char.ofNat (48 + d) ≠ '\n' := by
  interval_cases d <;> decide

/-- The digits of a number: all are digits, the first is not zero unless the number is. -/
theorem showNat_spec (n : ℕ) : ∃ d l, showNat n = Char.ofNat (48 + d) :: l ∧ d < 10 ∧ (n ≠ 0 → d ≠ 0) ∧
    ∀ c ∈ l, ∃ e < 10, c = Char.ofNat (48 + e) := by
  induction n using Nat.strong_induction_on with
  | _ n ih =>
    rw [showNat]
    split_ifs with h
    · exact ⟨n, [], rfl, h, fun h => h, by simp⟩
    · obtain ⟨d, l, e, hd, h0, hl⟩ := ih (n / 10) (by omega)
      refine ⟨d, l ++ [Char.ofNat (48 + n % 10)], by rw [e, List.cons_append], hd, fun _ => h0 (by omega), ?_⟩
      intro c hc
      rw [List.mem_append, List.mem_singleton] at hc
      rcases hc with hc | rfl
      · exact hl c hc
      · exact ⟨n % 10, by omega, rfl⟩

theorem digitsVal_append {l : Str} (hl : ∀ c ∈ l, ∃ e < 10, c = Char.ofNat (48 + e)) (acc : ℕ) (s : Str) :
    digitsVal acc (l ++ s) = digitsVal (digitsVal acc l) s := by
  induction l generalizing acc with
  | nil => rfl
  | cons c l ih =>
    obtain ⟨e, he, rfl⟩ := hl c (by simp)
    rw [List.cons_append, digitsVal, digitsVal, digitVal_ofNat he]
    exact ih (fun c hc => hl c (by simp [hc])) _

theorem showNat_digits (n : ℕ) : ∀ c ∈ showNat n, ∃ e < 10, c = Char.ofNat (48 + e) := by
  obtain ⟨d, l, e, hd, -, hl⟩ := showNat_spec n
  rw [e]
  intro c hc
  rcases List.mem_cons.mp hc with rfl | hc
  · exact ⟨d, hd, rfl⟩
  · exact hl c hc

theorem digitsVal_showNat (n : ℕ) : digitsVal 0 (showNat n) = n := by
  induction n using Nat.strong_induction_on with
  | _ n ih =>
    rw [showNat]
    split_ifs with h
    · rw [digitsVal, digitVal_ofNat h]; simp [digitsVal]
    · rw [digitsVal_append (showNat_digits _), ih (n / 10) (by omega), digitsVal, digitVal_ofNat (by omega)]
      simp only [digitsVal]; omega

/-- A positive start never becomes zero. -/
theorem digitsVal_pos {acc : ℕ} (h : 0 < acc) (s : Str) : 0 < digitsVal acc s := by
  induction s generalizing acc with
  | nil => exact h
  | cons c s ih =>
    rw [digitsVal]
    cases digitVal c with
    | none => exact h
    | some d => exact ih (by omega)

theorem stol_digit {d : ℕ} (hd : d < 10) (l : Str) : stol (Char.ofNat (48 + d) :: l) =
    if (digitsVal 0 (Char.ofNat (48 + d) :: l) : ℤ) < 2 ^ 63 then .ok (digitsVal 0 (Char.ofNat (48 + d) :: l) : ℤ)
    else .error .exception := by
  have h := ofNat_ne hd
  simp only [stol, trim_nonspace (isSpace_ofNat hd), List.head?_cons, Option.some.injEq, h.1, h.2.1, or_self, if_false,
    digitVal_ofNat hd, Option.isSome_some, if_true]
  split_ifs with a b
  · rfl
  · omega
  · omega
  · rfl

theorem stol_space (s : Str) : stol (' ' :: s) = stol s := by
  simp only [stol, trim_space]

theorem number_space (s : Str) : number (' ' :: s) = number s := by
  simp only [number, stol_space]

theorem number_showNat {n : ℕ} (h : n < 2 ^ 63) : number (showNat n) = .ok (n : ℤ) := by
  obtain ⟨d, l, e, hd, -, -⟩ := showNat_spec n
  have hv : digitsVal 0 (Char.ofNat (48 + d) :: l) = n := by rw [← e, digitsVal_showNat]
  rw [number, e, stol_digit hd, hv, if_pos (by exact_mod_cast h)]
  simp

/-- A cut inside the digits of a positive number leaves a positive number. -/
theorem number_cut {n : ℕ} (h0 : n ≠ 0) {q : Str} (hq : q <+: showNat n) (hne : q ≠ []) :
    number q = .error .exception ∨ ∃ i, 0 < i ∧ number q = .ok i := by
  obtain ⟨d, l, e, hd, hd0, -⟩ := showNat_spec n
  obtain ⟨c, q', rfl⟩ := List.exists_cons_of_ne_nil hne
  obtain ⟨t, ht⟩ := hq
  rw [e, List.cons_append] at ht
  obtain ⟨rfl, -⟩ := List.cons.inj ht
  rw [number, stol_digit hd]
  split_ifs with h
  · right
    refine ⟨(digitsVal 0 (Char.ofNat (48 + d) :: q') : ℤ), ?_, by simp⟩
    have := digitsVal_pos (acc := d) (by have := hd0 h0; omega) q'
    rw [digitsVal, digitVal_ofNat hd]
    simp only [mul_zero, zero_add]
    exact_mod_cast this
  · left; rfl

theorem number_nil : number [] = .error .exception := rfl

theorem number_one_space : number [' '] = .error .exception := by rw [number_space]; rfl

theorem showInt_nat (n : ℕ) : showInt n = showNat n := by
  rw [showInt, if_neg (by omega), Int.natAbs_natCast]

theorem newline_showNat (n : ℕ) : '\n' ∉ showNat n := by
  intro h
  obtain ⟨e, he, h1⟩ := showNat_digits n _ h
  exact (ofNat_ne he).2.2 h1.symm

end Mandelbrot.IO
