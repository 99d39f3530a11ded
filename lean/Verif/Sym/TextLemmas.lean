import Verif.Sym.Text
import Verif.Sym.Lemmas
import Verif.Spec.Cpp
import Mathlib.NumberTheory.Padics.PadicVal.Basic

/-!
# Reading back the text of expressions

Lemmas for the texts of /repo/exp.cc 30-70: which tokens they are, and how the grammar reads them.
-/

namespace Mandelbrot.Cpp

/-- What may follow a text: nothing, or a character that ends any token; with `dot` also a member access. -/
def Dl (dot : Bool) (r : List Char) : Prop :=
  r = [] ∨ (∃ c r', r = c :: r' ∧ c ∈ [' ', ')', ',', ';', ']']) ∨ (dot = true ∧ ∃ c r', r = '.' :: c :: r' ∧ idStart c = true)

/-- The text has these tokens, in front of anything that ends them. -/
def Lx (dot : Bool) (s : List Char) (ts : List Tok) : Prop := ∀ r, Dl dot r → lex .none (s ++ r) = ts ++ lex .none r

theorem Lx.weaken {s : List Char} {ts : List Tok} (h : Lx true s ts) : Lx false s ts := by
  intro r hr
  refine h r ?_
  rcases hr with h | h | ⟨h, _⟩
  · exact Or.inl h
  · exact Or.inr (Or.inl h)
  · cases h

theorem first_none (c : Char) (s : List Char) : lex .none (c :: s) = lex (first c) s := by
  simp [lex, step]

theorem joins_false {c d : Char} (h : c ∉ ['-', '+', '*', '/', '<', '>', '=', '!', '&', '|', '^', '%', ':', '#']) : joins c d = false := by
  simp only [joins, List.mem_cons, Prod.mk.injEq, List.not_mem_nil, or_false, decide_eq_false_iff_not]
  simp only [List.mem_cons, List.not_mem_nil, or_false, not_or] at h
  tauto

/-- A punctuator that nothing can extend. -/
theorem lex_punc {c : Char} (h : c ∉ ['-', '+', '*', '/', '<', '>', '=', '!', '&', '|', '^', '%', ':', '#', '.'])
    (hf : first c = .punc c) (s : List Char) : lex .none (c :: s) = .p c :: lex .none s := by
  rw [first_none, hf]
  cases s with
  | nil => simp [lex, flush]
  | cons d s =>
    have h1 : joins c d = false := joins_false (by simp only [List.mem_cons, List.not_mem_nil, or_false, not_or] at h ⊢; tauto)
    have h2 : c ≠ '.' := by simp only [List.mem_cons, List.not_mem_nil, or_false, not_or] at h; tauto
    rw [first_none]
    simp [lex, step, h1, h2]

theorem lex_open (s : List Char) : lex .none ('(' :: s) = .p '(' :: lex .none s := lex_punc (by decide) rfl s
theorem lex_close (s : List Char) : lex .none (')' :: s) = .p ')' :: lex .none s := lex_punc (by decide) rfl s
theorem lex_comma (s : List Char) : lex .none (',' :: s) = .p ',' :: lex .none s := lex_punc (by decide) rfl s

theorem lex_space (s : List Char) : lex .none (' ' :: s) = lex .none s := by
  rw [first_none]; rfl

/-- A punctuator in front of something that does not extend it. -/
theorem lex_before {c d : Char} (hc : c ≠ '.') (hf : first c = .punc c) (h : joins c d = false) (s : List Char) :
    lex .none (c :: d :: s) = .p c :: lex .none (d :: s) := by
  rw [first_none, hf, first_none]
  simp [lex, step, h, hc]

theorem alpha_digit {c : Char} (h : c.isAlpha = true) (h' : c.isDigit = true) : False := by
  simp only [Char.isDigit, Char.isAlpha, Char.isUpper, Char.isLower, Bool.or_eq_true, Bool.and_eq_true, decide_eq_true_eq, ge_iff_le,
    UInt32.le_iff_toNat_le] at h h'
  have h1 : ('A'.val).toNat = 65 := rfl
  have h2 : ('a'.val).toNat = 97 := rfl
  have h3 : ('9'.val).toNat = 57 := rfl
  omega

theorem lex_dot {d : Char} (h : idStart d = true) (s : List Char) : lex .none ('.' :: d :: s) = .p '.' :: lex .none (d :: s) := by
  have h1 : joins '.' d = false := joins_false (by decide)
  have h2 : d.isDigit = false := by
    by_contra hd
    simp only [Bool.not_eq_false] at hd
    unfold idStart at h
    rw [Bool.or_eq_true] at h
    rcases h with h | h
    · exact alpha_digit h hd
    · simp only [decide_eq_true_eq] at h
      subst h; revert hd; decide
  rw [first_none, show first '.' = .punc '.' from rfl, first_none]
  simp [lex, step, h1, h2]

theorem lex_word {u : List Char} (hu : ∀ c ∈ u, idChar c = true) : ∀ (w r : List Char), lex (.word w) (u ++ r) = lex (.word (w ++ u)) r := by
  induction u with
  | nil => intro w r; simp
  | cons c u ih =>
    intro w r
    rw [List.cons_append, lex]
    simp only [step, hu c (by simp), if_true, List.nil_append]
    rw [ih (fun d hd => hu d (by simp [hd]))]
    simp

theorem lex_number {u : List Char} (hu : ∀ c ∈ u, c.isDigit = true) : ∀ (w r : List Char),
    lex (.number w) (u ++ r) = lex (.number (w ++ u)) r := by
  induction u with
  | nil => intro w r; simp
  | cons c u ih =>
    intro w r
    have hc : inNumber w c = true := by
      have := hu c (by simp)
      simp [inNumber, idChar, Char.isAlphanum, this]
    rw [List.cons_append, lex]
    simp only [step, hc, if_true, List.nil_append]
    rw [ih (fun d hd => hu d (by simp [hd]))]
    simp

/-- Identifiers. -/
def IsId (s : List Char) : Prop := ∃ c s', s = c :: s' ∧ idStart c = true ∧ ∀ d ∈ s', idChar d = true

theorem idStart_not_space {c : Char} (h : idStart c = true) : c ≠ ' ' := by
  rintro rfl; revert h; decide

theorem lx_id {s : List Char} (h : IsId s) : Lx true s [.id s] := by
  obtain ⟨c, s', rfl, hc, hs⟩ := h
  intro r hr
  have hf : first c = .word [c] := by simp [first, idStart_not_space hc, hc]
  rw [List.cons_append, first_none, hf, lex_word hs]
  rcases hr with rfl | ⟨d, r', rfl, hd⟩ | ⟨_, d, r', rfl, hd⟩
  · simp [lex, flush]
  · have : idChar d = false := by
      simp only [List.mem_cons, List.not_mem_nil, or_false] at hd
      rcases hd with rfl | rfl | rfl | rfl | rfl <;> decide
    simp [lex, step, this]
  · have : idChar '.' = false := by decide
    simp only [lex, step, this, Bool.false_eq_true, if_false, List.nil_append, List.cons_append]

/-- Digits. -/
def IsNum (s : List Char) : Prop := s ≠ [] ∧ ∀ c ∈ s, c.isDigit = true

theorem lx_num {s : List Char} (h : IsNum s) : Lx false s [.num s] := by
  obtain ⟨hn, hd⟩ := h
  cases s with
  | nil => exact absurd rfl hn
  | cons c s =>
    intro r hr
    have hc := hd c (by simp)
    have hf : first c = .number [c] := by
      have h1 : c ≠ ' ' := by rintro rfl; revert hc; decide
      have h2 : idStart c = false := by
        by_contra h
        simp only [Bool.not_eq_false, idStart, Bool.or_eq_true] at h
        rcases h with h | h
        · exact alpha_digit h hc
        · simp only [decide_eq_true_eq] at h
          subst h; revert hc; decide
      simp [first, h1, h2, hc]
    rw [List.cons_append, first_none, hf, lex_number (fun d h => hd d (by simp [h]))]
    rcases hr with rfl | ⟨d, r', rfl, hd'⟩ | ⟨h, _⟩
    · simp [lex, flush]
    · have : inNumber ([c] ++ s) d = false := by
        simp only [List.mem_cons, List.not_mem_nil, or_false] at hd'
        rcases hd' with rfl | rfl | rfl | rfl | rfl <;> simp [inNumber, idChar, Char.isAlphanum, Char.isAlpha, Char.isUpper,
          Char.isLower, Char.isDigit]
      rw [lex, step, this, first_none]
      rfl
    · cases h

theorem lx_paren {s : List Char} {ts : List Tok} (h : Lx false s ts) : Lx true ('(' :: (s ++ [')'])) (.p '(' :: (ts ++ [.p ')'])) := by
  intro r _
  have h1 := h (')' :: r) (Or.inr (Or.inl ⟨_, _, rfl, by decide⟩))
  rw [List.cons_append, lex_open, List.append_assoc, List.singleton_append, h1, lex_close]
  simp

theorem lx_binary {s u : List Char} {ts us : List Tok} {c : Char} (hc : c ∈ ['+', '-', '*', '/']) (h : Lx false s ts) (h' : Lx false u us) :
    Lx false (s ++ [' ', c, ' '] ++ u) (ts ++ .p c :: us) := by
  intro r hr
  have h1 := h (' ' :: c :: ' ' :: (u ++ r)) (Or.inr (Or.inl ⟨_, _, rfl, by decide⟩))
  rw [show s ++ [' ', c, ' '] ++ u ++ r = s ++ ' ' :: c :: ' ' :: (u ++ r) by simp, h1, lex_space,
    lex_before (by simp only [List.mem_cons, List.not_mem_nil, or_false] at hc; rcases hc with rfl | rfl | rfl | rfl <;> decide)
      (by simp only [List.mem_cons, List.not_mem_nil, or_false] at hc; rcases hc with rfl | rfl | rfl | rfl <;> rfl)
      (by simp only [List.mem_cons, List.not_mem_nil, or_false] at hc; rcases hc with rfl | rfl | rfl | rfl <;> decide),
    lex_space, h' r hr]
  simp

theorem lx_field {s f : List Char} {ts : List Tok} (h : Lx true s ts) (hf : IsId f) :
    Lx true (s ++ '.' :: f) (ts ++ [.p '.', .id f]) := by
  intro r hr
  obtain ⟨c, f', rfl, hc, hf'⟩ := hf
  have h1 := h ('.' :: c :: (f' ++ r)) (Or.inr (Or.inr ⟨rfl, _, _, rfl, hc⟩))
  have h2 := lx_id ⟨c, f', rfl, hc, hf'⟩ r hr
  rw [show s ++ '.' :: c :: f' ++ r = s ++ '.' :: c :: (f' ++ r) by simp, h1, lex_dot hc,
    show c :: (f' ++ r) = c :: f' ++ r by simp, h2]
  simp

/-- A text whose first character does not extend a minus sign. -/
def NoJoin (s : List Char) : Prop := ∃ c s', s = c :: s' ∧ joins '-' c = false

theorem lx_neg {b : Bool} {s : List Char} {ts : List Tok} (h : Lx b s ts) (hs : NoJoin s) : Lx b ('-' :: s) (.p '-' :: ts) := by
  intro r hr
  obtain ⟨c, s', rfl, hc⟩ := hs
  have := h r hr
  rw [List.cons_append] at this
  rw [List.cons_append, List.cons_append, lex_before (by decide) rfl hc, this, List.cons_append]

/-- Arguments in parentheses. -/
theorem lx_args1 {f s : List Char} {ts : List Tok} (hf : IsId f) (h : Lx false s ts) :
    Lx true (f ++ '(' :: (s ++ [')'])) (.id f :: .p '(' :: (ts ++ [.p ')'])) := by
  intro r hr
  obtain ⟨c, f', rfl, hc, hf'⟩ := hf
  have hw : first c = .word [c] := by simp [first, idStart_not_space hc, hc]
  have hp := lx_paren h r hr
  rw [List.cons_append] at hp
  rw [List.append_assoc, List.cons_append, first_none, hw, lex_word hf', List.cons_append, lex.eq_def]
  rw [first_none] at hp
  have h0 : idChar '(' = false := by decide
  simp only [step, h0, Bool.false_eq_true, if_false, List.cons_append, List.nil_append]
  rw [hp]
  simp

theorem lx_comma {s u : List Char} {ts us : List Tok} (h : Lx false s ts) (h' : Lx false u us) :
    Lx false (s ++ [',', ' '] ++ u) (ts ++ .p ',' :: us) := by
  intro r hr
  have h1 := h (',' :: ' ' :: (u ++ r)) (Or.inr (Or.inl ⟨_, _, rfl, by decide⟩))
  rw [show s ++ [',', ' '] ++ u ++ r = s ++ ',' :: ' ' :: (u ++ r) by simp, h1, lex_comma, lex_space, h' r hr]
  simp

/-! ## The grammar -/

/-- With enough depth, `f` gives `x`. -/
def Ev {α : Type} (f : ℕ → Option α) (x : α) : Prop := ∃ N, ∀ n ≥ N, f n = some x

theorem Ev.succ {α : Type} {f g : ℕ → Option α} {x : α} (h : Ev f x) (hg : ∀ n, g (n + 1) = f n) : Ev g x := by
  obtain ⟨N, h⟩ := h
  refine ⟨N + 1, fun n hn => ?_⟩
  obtain ⟨m, rfl⟩ := Nat.exists_eq_add_of_lt (Nat.lt_of_lt_of_le (Nat.lt_succ_self _) hn)
  rw [hg, h _ (by omega)]

theorem Ev.bind {α β : Type} {f : ℕ → Option α} {g : α → ℕ → Option β} {k : ℕ → Option β} {x : α} {y : β} (hf : Ev f x) (hg : Ev (g x) y)
    (hk : ∀ n, k (n + 1) = (f n).bind fun a => g a n) : Ev k y := by
  obtain ⟨N, hf⟩ := hf
  obtain ⟨M, hg⟩ := hg
  refine ⟨N + M + 1, fun n hn => ?_⟩
  obtain ⟨m, rfl⟩ := Nat.exists_eq_add_of_lt (Nat.lt_of_lt_of_le (Nat.lt_succ_self _) hn)
  rw [hk, hf _ (by omega), Option.bind_some, hg _ (by omega)]

/-- No call, member or subscript follows. -/
def NoPost (r : List Tok) : Prop := ∀ c r', r = .p c :: r' → c ≠ '.' ∧ c ≠ '(' ∧ c ≠ '['

/-- No factor follows. -/
def NoMul (r : List Tok) : Prop := ∀ c r', r = .p c :: r' → c ≠ '*' ∧ c ≠ '/'

/-- No summand follows. -/
def NoAdd (r : List Tok) : Prop := ∀ c r', r = .p c :: r' → c ≠ '+' ∧ c ≠ '-'

def Post (ts : List Tok) (t : Tree) : Prop :=
  (∀ r, ts ≠ .p '-' :: r) ∧ ts ≠ [] ∧ ∀ r x, Ev (fun n => pPostRest n t r) x → Ev (fun n => pPost n (ts ++ r)) x
def Un (ts : List Tok) (t : Tree) : Prop := ∀ r, NoPost r → Ev (fun n => pUnary n (ts ++ r)) (t, r)
def Mu (ts : List Tok) (t : Tree) : Prop := ∀ r x, NoPost r → Ev (fun n => pMulRest n t r) x → Ev (fun n => pMul n (ts ++ r)) x
def Ad (ts : List Tok) (t : Tree) : Prop :=
  ∀ r x, NoPost r → NoMul r → Ev (fun n => pAddRest n t r) x → Ev (fun n => pAdd n (ts ++ r)) x

theorem postRest_stop {t : Tree} {r : List Tok} (h : NoPost r) : Ev (fun n => pPostRest n t r) (t, r) := by
  refine ⟨1, fun n hn => ?_⟩
  obtain ⟨m, rfl⟩ := Nat.exists_eq_add_of_lt (Nat.lt_of_lt_of_le (Nat.lt_succ_self _) hn)
  simp only [Nat.zero_add]
  unfold pPostRest
  split
  · exact absurd rfl (h _ _ rfl).1
  · exact absurd rfl (h _ _ rfl).1
  · exact absurd rfl (h _ _ rfl).2.1
  · exact absurd rfl (h _ _ rfl).2.1
  · exact absurd rfl (h _ _ rfl).2.2
  · rfl

theorem mulRest_stop {t : Tree} {r : List Tok} (h : NoMul r) : Ev (fun n => pMulRest n t r) (t, r) := by
  refine ⟨1, fun n hn => ?_⟩
  obtain ⟨m, rfl⟩ := Nat.exists_eq_add_of_lt (Nat.lt_of_lt_of_le (Nat.lt_succ_self _) hn)
  simp only [Nat.zero_add]
  unfold pMulRest
  split
  · have := h _ _ rfl
    rw [if_neg (by tauto)]
  · rfl

theorem addRest_stop {t : Tree} {r : List Tok} (h : NoAdd r) : Ev (fun n => pAddRest n t r) (t, r) := by
  refine ⟨1, fun n hn => ?_⟩
  obtain ⟨m, rfl⟩ := Nat.exists_eq_add_of_lt (Nat.lt_of_lt_of_le (Nat.lt_succ_self _) hn)
  simp only [Nat.zero_add]
  unfold pAddRest
  split
  · have := h _ _ rfl
    rw [if_neg (by tauto)]
  · rfl

theorem Post.un {ts : List Tok} {t : Tree} (h : Post ts t) : Un ts t := by
  intro r hr
  refine (h.2.2 r (t, r) (postRest_stop hr)).succ fun n => ?_
  unfold pUnary
  split
  · rename_i r' e
    cases ts with
    | nil => exact absurd rfl h.2.1
    | cons a ts =>
      rw [List.cons_append, List.cons.injEq] at e
      exact absurd (by rw [e.1]) (h.1 ts)
  · rfl

theorem Un.mu {ts : List Tok} {t : Tree} (h : Un ts t) : Mu ts t := by
  intro r x hr hx
  exact Ev.bind (g := fun a n => pMulRest n a.1 a.2) (h r hr) hx fun n => by rw [pMul]; rfl

theorem Mu.ad {ts : List Tok} {t : Tree} (h : Mu ts t) : Ad ts t := by
  intro r x hr hr' hx
  exact Ev.bind (g := fun a n => pAddRest n a.1 a.2) (h r (t, r) hr (mulRest_stop hr')) hx fun n => by rw [pAdd]; rfl

theorem un_neg {ts : List Tok} {t : Tree} (h : Un ts t) : Un (.p '-' :: ts) (.neg t) := by
  intro r hr
  refine Ev.bind (g := fun a n => some (.neg a.1, a.2)) (h r hr) ⟨0, fun _ _ => rfl⟩ fun n => ?_
  rw [List.cons_append, pUnary]; rfl

theorem mu_mul {ts us : List Tok} {t u : Tree} {c : Char} (hc : c = '*' ∨ c = '/') (h : Mu ts t) (h' : Un us u) :
    Mu (ts ++ .p c :: us) (.bin c t u) := by
  intro r x hr hx
  rw [List.append_assoc]
  refine h _ x (fun d r' e => ?_) ?_
  · simp only [List.cons_append, List.cons.injEq, Tok.p.injEq] at e
    rw [← e.1]; rcases hc with rfl | rfl <;> decide
  · refine Ev.bind (g := fun a n => pMulRest n (.bin c t a.1) a.2) (h' r hr) hx fun n => ?_
    rw [List.cons_append, pMulRest.eq_def]
    simp only [hc, if_true]; rfl

theorem ad_add {ts us : List Tok} {t u : Tree} {c : Char} (hc : c = '+' ∨ c = '-') (h : Ad ts t) (h' : Mu us u) :
    Ad (ts ++ .p c :: us) (.bin c t u) := by
  intro r x hr hr' hx
  rw [List.append_assoc]
  refine h _ x (fun d r' e => ?_) (fun d r' e => ?_) ?_
  · simp only [List.cons_append, List.cons.injEq, Tok.p.injEq] at e
    rw [← e.1]; rcases hc with rfl | rfl <;> decide
  · simp only [List.cons_append, List.cons.injEq, Tok.p.injEq] at e
    rw [← e.1]; rcases hc with rfl | rfl <;> decide
  · refine Ev.bind (g := fun a n => pAddRest n (.bin c t a.1) a.2) (h' r (u, r) hr (mulRest_stop hr')) hx fun n => ?_
    rw [List.cons_append, pAddRest.eq_def]
    simp only [hc, if_true]; rfl

theorem Ad.closed {ts : List Tok} {t : Tree} (h : Ad ts t) {c : Char} (hc : c = ')' ∨ c = ',' ∨ c = ']') (r : List Tok) :
    Ev (fun n => pAdd n (ts ++ .p c :: r)) (t, .p c :: r) := by
  refine h _ _ ?_ ?_ (addRest_stop ?_) <;>
  · intro d r' e
    simp only [List.cons.injEq, Tok.p.injEq] at e
    rw [← e.1]; rcases hc with rfl | rfl | rfl <;> decide

theorem post_paren {ts : List Tok} {t : Tree} (h : Ad ts t) : Post (.p '(' :: (ts ++ [.p ')'])) t := by
  refine ⟨by intro r e; simp at e, by simp, fun r x hx => ?_⟩
  refine Ev.bind (f := fun n => pPrim n (.p '(' :: (ts ++ [.p ')']) ++ r)) (g := fun a n => pPostRest n a.1 a.2) (x := (t, r)) ?_ hx
    fun n => by rw [pPost]; rfl
  refine Ev.bind (g := fun a n => match a.2 with | .p ')' :: r => some (a.1, r) | _ => none) (h.closed (Or.inl rfl) r) ⟨0, fun _ _ => rfl⟩
    fun n => ?_
  rw [List.cons_append, List.append_assoc, List.singleton_append, pPrim]; rfl

theorem post_id {s : List Char} (hs : s ≠ "constant".toList) : Post [.id s] (.id s) := by
  refine ⟨by intro r e; simp at e, by simp, fun r x hx => ?_⟩
  refine Ev.bind (f := fun n => pPrim n ([.id s] ++ r)) (g := fun a n => pPostRest n a.1 a.2) (x := (.id s, r)) ?_ hx
    fun n => by rw [pPost]; rfl
  refine ⟨1, fun n hn => ?_⟩
  obtain ⟨m, rfl⟩ := Nat.exists_eq_add_of_lt (Nat.lt_of_lt_of_le (Nat.lt_succ_self _) hn)
  simp only [Nat.zero_add, List.cons_append, List.nil_append]
  rw [pPrim.eq_def]
  simp only [hs, if_false]

theorem post_num (s : List Char) : Post [.num s] (.num s) := by
  refine ⟨by intro r e; simp at e, by simp, fun r x hx => ?_⟩
  refine Ev.bind (f := fun n => pPrim n ([.num s] ++ r)) (g := fun a n => pPostRest n a.1 a.2) (x := (.num s, r)) ?_ hx
    fun n => by rw [pPost]; rfl
  refine ⟨1, fun n hn => ?_⟩
  obtain ⟨m, rfl⟩ := Nat.exists_eq_add_of_lt (Nat.lt_of_lt_of_le (Nat.lt_succ_self _) hn)
  simp only [Nat.zero_add, List.cons_append, List.nil_append]
  rw [pPrim]

theorem post_field {ts : List Tok} {t : Tree} (h : Post ts t) (f : List Char) : Post (ts ++ [.p '.', .id f]) (.field t f) := by
  refine ⟨?_, by simp, fun r x hx => ?_⟩
  · intro r e
    cases ts with
    | nil => exact absurd rfl h.2.1
    | cons a ts =>
      rw [List.cons_append, List.cons.injEq] at e
      exact h.1 ts (by rw [e.1])
  · rw [List.append_assoc]
    refine h.2.2 _ x (hx.succ fun n => ?_)
    rw [List.cons_append, List.cons_append, pPostRest.eq_def]
    simp

/-- A list of arguments, before the closing parenthesis. -/
def Args (ts : List Tok) (as : List Tree) : Prop :=
  (∀ r, ts ≠ .p ')' :: r) ∧ ts ≠ [] ∧ ∀ r, Ev (fun n => pArgs n (ts ++ .p ')' :: r)) (as, .p ')' :: r)

/-- The first token is not a closing parenthesis. -/
def Op (ts : List Tok) : Prop := (∀ r, ts ≠ .p ')' :: r) ∧ ts ≠ []

theorem args_one {ts : List Tok} {t : Tree} (h : Ad ts t) (ho : Op ts) : Args ts [t] := by
  refine ⟨ho.1, ho.2, fun r => ?_⟩
  refine Ev.bind (g := fun a n => match a.2 with
      | .p ',' :: r => do
        let (as, r) ← pArgs n r
        some (a.1 :: as, r)
      | _ => some ([a.1], a.2)) (h.closed (Or.inl rfl) r) ⟨0, fun _ _ => rfl⟩ fun n => ?_
  rw [pArgs]; rfl

theorem args_cons {ts us : List Tok} {t : Tree} {as : List Tree} (h : Ad ts t) (ho : Op ts) (h' : Args us as) :
    Args (ts ++ .p ',' :: us) (t :: as) := by
  refine ⟨?_, by simp, fun r => ?_⟩
  · intro r e
    cases ts with
    | nil => exact ho.2 rfl
    | cons a ts =>
      rw [List.cons_append, List.cons.injEq] at e
      exact ho.1 ts (by rw [e.1])
  rw [List.append_assoc]
  refine Ev.bind (g := fun a n => match a.2 with
      | .p ',' :: r => do
        let (as, r) ← pArgs n r
        some (a.1 :: as, r)
      | _ => some ([a.1], a.2)) (h.closed (Or.inr (Or.inl rfl)) (us ++ .p ')' :: r)) (y := (t :: as, .p ')' :: r)) ?_ fun n => ?_
  · obtain ⟨N, hN⟩ := h'.2.2 r
    refine ⟨N, fun n hn => ?_⟩
    have h1 := hN n hn
    simp only at h1 ⊢
    rw [h1]
    rfl
  · rw [pArgs]; rfl

theorem post_call {ts us : List Tok} {t : Tree} {as : List Tree} (h : Post ts t) (h' : Args us as) :
    Post (ts ++ .p '(' :: (us ++ [.p ')'])) (.call t as) := by
  refine ⟨?_, by simp, fun r x hx => ?_⟩
  · intro r e
    cases ts with
    | nil => exact absurd rfl h.2.1
    | cons a ts =>
      rw [List.cons_append, List.cons.injEq] at e
      exact h.1 ts (by rw [e.1])
  · rw [List.append_assoc]
    refine h.2.2 _ x ?_
    refine Ev.bind (g := fun a n => match a.2 with | .p ')' :: r => pPostRest n (.call t a.1) r | _ => none) (h'.2.2 r) hx fun n => ?_
    rw [List.cons_append, List.append_assoc, List.singleton_append, pPostRest]
    · rfl
    · intro r' e
      cases us with
      | nil => exact absurd rfl h'.2.1
      | cons a us =>
        rw [List.cons_append, List.cons.injEq] at e
        exact absurd (by rw [e.1]) (h'.1 us)

end Mandelbrot.Cpp

namespace Mandelbrot.Sym

open Cpp

/-- The tree of an integer. -/
def intTree (n : ℤ) : Tree := if n < 0 then .neg (.num (Nat.toDigits 10 n.natAbs)) else .num (Nat.toDigits 10 n.natAbs)

/-- The tree of an expression, with the names of functions for squares, doubles and divisions by powers of two; `O` gives the trees of
the texts of `OtherExp`. -/
def Ex.tree (C : Cfg) (O : String → Tree) : Ex → Tree
  | .var v _ => .id v.toList
  | .int n => intTree n
  | .field x f _ => .field (x.tree C O) f.toList
  | .neg x _ => .neg (x.tree C O)
  | .add x y _ => .bin '+' (x.tree C O) (y.tree C O)
  | .sub x y _ => .bin '-' (x.tree C O) (y.tree C O)
  | .mul x y _ =>
    if ∀ i, x.sig C i = y.sig C i then .call (.id "sqr".toList) [x.tree C O]
    else if x.isTwo then .call (.id "twice".toList) [y.tree C O]
    else if y.isTwo then .call (.id "twice".toList) [x.tree C O]
    else .bin '*' (x.tree C O) (y.tree C O)
  | .div x a _ =>
    if a = 2 then .call (.id "half".toList) [x.tree C O]
    else if a > 2 ∧ singleBit a.toNat then .call (.id "ldexp".toList) [x.tree C O, .neg (intTree (padicValNat 2 a.toNat))]
    else .bin '/' (x.tree C O) (intTree a)
  | .call1 f x _ => .call (.id f.toList) [x.tree C O]
  | .call2 f x y _ => .call (.id f.toList) [x.tree C O, y.tree C O]
  | .call3 f x y z _ => .call (.id f.toList) [x.tree C O, y.tree C O, z.tree C O]
  | .other t _ _ => O t

/-- A name: an identifier that is not the one template. -/
def Name (v : String) : Prop := IsId v.toList ∧ v.toList ≠ "constant".toList

/-- A text that is a postfix-expression with the given tree, in any context. -/
def TextOf (t : List Char) (T : Tree) : Prop := ∃ ts, Lx true t ts ∧ Post ts T ∧ Cpp.Op ts ∧ NoJoin t

/-- Neither an integer nor a negation. -/
def Ex.plain : Ex → Bool
  | .int _ => false
  | .neg _ _ => false
  | _ => true

/-- Names are identifiers, members are not taken of integers, negations are not of negations or integers, divisors are positive, and
the other texts are postfix-expressions. -/
def Ex.Spelled (O : String → Tree) : Ex → Prop
  | .var v _ => Name v
  | .int _ => True
  | .field x f _ => x.Spelled O ∧ x.unint = none ∧ IsId f.toList
  | .neg x _ => x.Spelled O ∧ x.plain = true
  | .add x y _ => x.Spelled O ∧ y.Spelled O
  | .sub x y _ => x.Spelled O ∧ y.Spelled O
  | .mul x y _ => x.Spelled O ∧ y.Spelled O
  | .div x a _ => x.Spelled O ∧ 0 < a
  | .call1 f x _ => Name f ∧ x.Spelled O
  | .call2 f x y _ => Name f ∧ x.Spelled O ∧ y.Spelled O
  | .call3 f x y z _ => Name f ∧ x.Spelled O ∧ y.Spelled O ∧ z.Spelled O
  | .other t p _ => p = 2 ∧ TextOf t.toList (O t)

theorem isNum_digits (n : ℕ) : IsNum (Nat.toDigits 10 n) := by
  refine ⟨?_, fun c hc => Nat.isDigit_of_mem_toDigits (by norm_num) (by norm_num) hc⟩
  intro h
  have := Nat.length_toDigits_pos (b := 10) (n := n)
  rw [h] at this
  simp at this

theorem digits_val (n : ℕ) : digitsVal (Nat.toDigits 10 n) = some n := by
  have h : (Nat.toDigits 10 n).all Char.isDigit = true := List.all_eq_true.mpr (isNum_digits n).2
  unfold digitsVal
  rw [if_pos h]
  exact congrArg some (Nat.ofDigitChars_toDigits (b := 10) (n := n) (by norm_num) (by norm_num))

/-- What the text of an expression at precedence `p` is. -/
structure Text (p : ℕ) (int plain : Bool) (s : List Char) (T : Tree) (ts : List Tok) : Prop where
  lx : Lx false s ts
  op : Cpp.Op ts
  ad : Ad ts T
  mu : p ≤ 5 → Mu ts T
  un : p ≤ 4 → Un ts T
  post : p ≤ 2 → int = false → Post ts T ∧ Lx true s ts
  noJoin : p ≤ 3 → plain = true → NoJoin s

theorem Text.of_post {p : ℕ} {int plain : Bool} {s : List Char} {T : Tree} {ts : List Tok} (hl : Lx true s ts) (hp : Post ts T)
    (ho : Cpp.Op ts) (hj : NoJoin s) : Text p int plain s T ts :=
  ⟨hl.weaken, ho, hp.un.mu.ad, fun _ => hp.un.mu, fun _ => hp.un, fun _ _ => ⟨hp, hl⟩, fun _ _ => hj⟩

theorem op_cons {t : Tok} {ts : List Tok} (h : t ≠ .p ')') : Cpp.Op (t :: ts) := ⟨fun r e => h (by simp at e; exact e.1), by simp⟩

theorem op_append {ts us : List Tok} (h : Cpp.Op ts) : Cpp.Op (ts ++ us) := by
  cases ts with
  | nil => exact absurd rfl h.2
  | cons a ts => exact op_cons (fun e => h.1 ts (by rw [e]))

theorem Text.paren {p : ℕ} {int plain : Bool} {s : List Char} {T : Tree} {ts : List Tok} (hl : Lx false s ts) (ha : Ad ts T) :
    Text p int plain (parensIf s true) T (.p '(' :: (ts ++ [.p ')'])) := by
  refine Text.of_post (lx_paren hl) (post_paren ha) (op_cons (by decide)) ⟨'(', s ++ [')'], rfl, by decide⟩

theorem noJoin_id {s r : List Char} (h : IsId s) : NoJoin (s ++ r) := by
  obtain ⟨c, s', rfl, hc, _⟩ := h
  refine ⟨c, s' ++ r, rfl, ?_⟩
  by_contra hj
  simp only [joins, List.mem_cons, Prod.mk.injEq, List.not_mem_nil, or_false, Bool.not_eq_false, decide_eq_true_eq] at hj
  have : c = '-' ∨ c = '=' ∨ c = '>' := by
    revert hj
    simp
  rcases this with rfl | rfl | rfl <;> revert hc <;> decide

theorem name_reserved {s : List Char} (h : s ∈ ["sqr".toList, "twice".toList, "half".toList, "ldexp".toList]) :
    IsId s ∧ s ≠ "constant".toList := by
  simp only [List.mem_cons, List.not_mem_nil, or_false] at h
  rcases h with rfl | rfl | rfl | rfl
  · exact ⟨⟨'s', ['q', 'r'], rfl, by decide, by decide⟩, by decide⟩
  · exact ⟨⟨'t', ['w', 'i', 'c', 'e'], rfl, by decide, by decide⟩, by decide⟩
  · exact ⟨⟨'h', ['a', 'l', 'f'], rfl, by decide, by decide⟩, by decide⟩
  · exact ⟨⟨'l', ['d', 'e', 'x', 'p'], rfl, by decide, by decide⟩, by decide⟩

theorem text_call {p : ℕ} {int plain : Bool} {f s : List Char} {as : List Tree} {ts : List Tok} (hf : IsId f ∧ f ≠ "constant".toList)
    (hl : Lx false s ts) (ha : Args ts as) :
    Text p int plain (f ++ '(' :: (s ++ [')'])) (.call (.id f) as) (.id f :: .p '(' :: (ts ++ [.p ')'])) :=
  Text.of_post (lx_args1 hf.1 hl) (post_call (post_id hf.2) ha) (op_cons (by simp)) (noJoin_id hf.1)

theorem text_int (p : ℕ) (n : ℤ) : ∃ ts, Text p true false (showInt n) (intTree n) ts := by
  have hn := isNum_digits n.natAbs
  unfold showInt intTree
  split_ifs with h
  · refine ⟨.p '-' :: [.num (Nat.toDigits 10 n.natAbs)], ?_⟩
    have hj : NoJoin (Nat.toDigits 10 n.natAbs) := by
      obtain ⟨h1, h2⟩ := hn
      cases hd : Nat.toDigits 10 n.natAbs with
      | nil => exact absurd hd h1
      | cons c s =>
        have hc := h2 c (by rw [hd]; simp)
        refine ⟨c, s, rfl, ?_⟩
        by_contra hj
        simp only [joins, List.mem_cons, Prod.mk.injEq, List.not_mem_nil, or_false, Bool.not_eq_false, decide_eq_true_eq] at hj
        have : c = '-' ∨ c = '=' ∨ c = '>' := by
          revert hj
          simp
        rcases this with rfl | rfl | rfl <;> revert hc <;> decide
    have hu := un_neg (post_num (Nat.toDigits 10 n.natAbs)).un
    exact ⟨lx_neg (lx_num hn) hj, op_cons (by decide), hu.mu.ad, fun _ => hu.mu, fun _ => hu, fun _ h => by simp at h,
      fun _ h => by simp at h⟩
  · have hp := post_num (Nat.toDigits 10 n.natAbs)
    exact ⟨[.num _], lx_num hn, op_cons (by simp), hp.un.mu.ad, fun _ => hp.un.mu, fun _ => hp.un, fun _ h => by simp at h,
      fun _ h => by simp at h⟩

/-- The text of an expression, at every precedence from that of a postfix-expression on. -/
theorem text_reads (C : Cfg) (O : String → Tree) : ∀ (e : Ex), e.Spelled O → ∀ p ≥ 2,
    ∃ ts, Text p e.unint.isSome e.plain (e.text C p) (e.tree C O) ts := by
  have par : ∀ {s : List Char} {k p : ℕ}, ¬ k > p → parensIf s (k > p) = s := by
    intro s k p h; simp [parensIf, h]
  have par' : ∀ {s : List Char} {k p : ℕ}, k > p → parensIf s (k > p) = parensIf s true := by
    intro s k p h; simp [h]
  intro e
  induction e with
  | var v s =>
    intro h p hp
    have h : Name v := h
    rw [Ex.text, Ex.tree, par (by omega)]
    exact ⟨_, Text.of_post (lx_id h.1) (post_id h.2) (op_cons (by simp)) (by simpa using noJoin_id (r := []) h.1)⟩
  | int n =>
    intro _ p hp
    rw [Ex.text, Ex.tree, par (by omega)]
    exact text_int p n
  | field x f s ih =>
    intro h p hp
    obtain ⟨ts, hx⟩ := ih h.1 2 (by omega)
    obtain ⟨h1, h2⟩ := hx.post (by omega) (by rw [h.2.1]; rfl)
    rw [Ex.text, Ex.tree, par (by omega)]
    refine ⟨_, Text.of_post (lx_field h2 h.2.2) (post_field h1 _) (op_append hx.op) ?_⟩
    have hpl : x.plain = true ∨ x.plain = false := by cases x.plain <;> simp
    rcases hpl with hpl | hpl
    · obtain ⟨c, s', e, hc⟩ := hx.noJoin (by omega) hpl
      exact ⟨c, s' ++ '.' :: f.toList, by rw [e]; simp, hc⟩
    · cases x <;> simp [Ex.plain] at hpl
      · exact absurd h.2.1 (by simp [Ex.unint])
      · rename_i y t
        exact ⟨'(', '-' :: y.text C 3 ++ [')'] ++ '.' :: f.toList, by simp [Ex.text, parensIf], by decide⟩
  | neg x s ih =>
    intro h p hp
    obtain ⟨ts, hx⟩ := ih h.1 3 (by omega)
    have hl := lx_neg hx.lx (hx.noJoin (by omega) h.2)
    have hu := un_neg (hx.un (by omega))
    rw [Ex.text, Ex.tree]
    by_cases h3 : 3 > p
    · rw [par' h3]; exact ⟨_, Text.paren hl hu.mu.ad⟩
    · rw [par h3]
      exact ⟨_, hl, op_cons (by decide), hu.mu.ad, fun _ => hu.mu, fun _ => hu, fun h => by omega, fun _ h => by simp [Ex.plain] at h⟩
  | add x y s ihx ihy =>
    intro h p hp
    obtain ⟨ts, hx⟩ := ihx h.1 6 (by omega)
    obtain ⟨us, hy⟩ := ihy h.2 5 (by omega)
    have hl := lx_binary (c := '+') (by decide) hx.lx hy.lx
    have ha := ad_add (c := '+') (Or.inl rfl) hx.ad (hy.mu (by omega))
    rw [Ex.text, Ex.tree]
    by_cases h3 : 6 > p
    · rw [par' h3]; exact ⟨_, Text.paren hl ha⟩
    · rw [par h3]
      exact ⟨_, hl, op_append hx.op, ha, fun h => by omega, fun h => by omega, fun h => by omega, fun h => by omega⟩
  | sub x y s ihx ihy =>
    intro h p hp
    obtain ⟨ts, hx⟩ := ihx h.1 6 (by omega)
    obtain ⟨us, hy⟩ := ihy h.2 5 (by omega)
    have hl := lx_binary (c := '-') (by decide) hx.lx hy.lx
    have ha := ad_add (c := '-') (Or.inr rfl) hx.ad (hy.mu (by omega))
    rw [Ex.text, Ex.tree]
    by_cases h3 : 6 > p
    · rw [par' h3]; exact ⟨_, Text.paren hl ha⟩
    · rw [par h3]
      exact ⟨_, hl, op_append hx.op, ha, fun h => by omega, fun h => by omega, fun h => by omega, fun h => by omega⟩
  | mul x y s ihx ihy =>
    intro h p hp
    rw [Ex.text, Ex.tree]
    obtain ⟨ts0, hx0⟩ := ihx h.1 100 (by omega)
    obtain ⟨us0, hy0⟩ := ihy h.2 100 (by omega)
    split_ifs with h1 h2 h3
    · exact ⟨_, text_call (name_reserved (by simp)) hx0.lx (args_one hx0.ad hx0.op)⟩
    · exact ⟨_, text_call (name_reserved (by simp)) hy0.lx (args_one hy0.ad hy0.op)⟩
    · exact ⟨_, text_call (name_reserved (by simp)) hx0.lx (args_one hx0.ad hx0.op)⟩
    · obtain ⟨ts, hx⟩ := ihx h.1 5 (by omega)
      obtain ⟨us, hy⟩ := ihy h.2 4 (by omega)
      have hl := lx_binary (c := '*') (by decide) hx.lx hy.lx
      have ha := mu_mul (c := '*') (Or.inl rfl) (hx.mu (by omega)) (hy.un (by omega))
      by_cases h3 : 5 > p
      · rw [par' h3]; exact ⟨_, Text.paren hl ha.ad⟩
      · rw [par h3]
        exact ⟨_, hl, op_append hx.op, ha.ad, fun _ => ha, fun h => by omega, fun h => by omega, fun h => by omega⟩
  | div x a s ihx =>
    intro h p hp
    rw [Ex.text, Ex.tree]
    obtain ⟨ts0, hx0⟩ := ihx h.1 100 (by omega)
    split_ifs with h1 h2
    · exact ⟨_, text_call (name_reserved (by simp)) hx0.lx (args_one hx0.ad hx0.op)⟩
    · obtain ⟨us, hk⟩ := text_int 3 (padicValNat 2 a.toNat)
      have hj : NoJoin (showInt (padicValNat 2 a.toNat)) := by
        obtain ⟨h3, h4⟩ := isNum_digits (padicValNat 2 a.toNat)
        have e : showInt (padicValNat 2 a.toNat) = Nat.toDigits 10 (padicValNat 2 a.toNat) := by simp [showInt]
        rw [e]
        cases hd : Nat.toDigits 10 (padicValNat 2 a.toNat) with
        | nil => exact absurd hd h3
        | cons c s =>
          have hc := h4 c (by rw [hd]; simp)
          refine ⟨c, s, rfl, ?_⟩
          by_contra hj
          simp only [joins, List.mem_cons, Prod.mk.injEq, List.not_mem_nil, or_false, Bool.not_eq_false, decide_eq_true_eq] at hj
          have : c = '-' ∨ c = '=' ∨ c = '>' := by
            revert hj
            simp
          rcases this with rfl | rfl | rfl <;> revert hc <;> decide
      have hl := lx_comma hx0.lx (lx_neg hk.lx hj)
      have hu := un_neg (hk.un (by omega))
      have ha := args_cons hx0.ad hx0.op (args_one hu.mu.ad (op_cons (by decide)))
      refine ⟨_, (?_ : Text p _ _ _ _ (.id "ldexp".toList :: .p '(' :: ((ts0 ++ .p ',' :: .p '-' :: us) ++ [.p ')'])))⟩
      have := text_call (p := p) (int := false) (plain := true) (name_reserved (s := "ldexp".toList) (by simp)) hl ha
      rw [show ∀ l : List Char, Ex.text C x 100 ++ [',', ' ', '-'] ++ l = Ex.text C x 100 ++ [',', ' '] ++ '-' :: l from fun l => by simp]
      exact this
    · obtain ⟨ts, hx⟩ := ihx h.1 5 (by omega)
      obtain ⟨us, hk⟩ := text_int 3 a
      have hl := lx_binary (c := '/') (by decide) hx.lx hk.lx
      have ha := mu_mul (c := '/') (Or.inr rfl) (hx.mu (by omega)) (hk.un (by omega))
      by_cases h3 : 5 > p
      · rw [par' h3]; exact ⟨_, Text.paren hl ha.ad⟩
      · rw [par h3]
        exact ⟨_, hl, op_append hx.op, ha.ad, fun _ => ha, fun h => by omega, fun h => by omega, fun h => by omega⟩
  | call1 f x s ihx =>
    intro h p hp
    obtain ⟨ts, hx⟩ := ihx h.2 100 (by omega)
    rw [Ex.text, Ex.tree]
    exact ⟨_, text_call h.1 hx.lx (args_one hx.ad hx.op)⟩
  | call2 f x y s ihx ihy =>
    intro h p hp
    obtain ⟨ts, hx⟩ := ihx h.2.1 100 (by omega)
    obtain ⟨us, hy⟩ := ihy h.2.2 100 (by omega)
    rw [Ex.text, Ex.tree]
    exact ⟨_, text_call h.1 (lx_comma hx.lx hy.lx) (args_cons hx.ad hx.op (args_one hy.ad hy.op))⟩
  | call3 f x y z s ihx ihy ihz =>
    intro h p hp
    obtain ⟨ts, hx⟩ := ihx h.2.1 100 (by omega)
    obtain ⟨us, hy⟩ := ihy h.2.2.1 100 (by omega)
    obtain ⟨vs, hz⟩ := ihz h.2.2.2 100 (by omega)
    rw [Ex.text, Ex.tree]
    refine ⟨_, text_call h.1 (lx_comma (lx_comma hx.lx hy.lx) hz.lx) ?_⟩
    rw [List.append_assoc]
    exact args_cons hx.ad hx.op (args_cons hy.ad hy.op (args_one hz.ad hz.op))
  | other t q s =>
    intro h p hp
    obtain ⟨rfl, ts, h1, h2, h3, h4⟩ := h
    rw [Ex.text, Ex.tree, par (by omega)]
    exact ⟨_, Text.of_post h1 h2 h3 h4⟩

/-! ## Values -/

section
variable {R : Type} [CommRing R]

/-- The functions that `show` brings in. -/
def reserved : List (List Char) := ["sqr".toList, "twice".toList, "half".toList, "ldexp".toList]

/-- The names mean the same in both. -/
structure Agree (L : Lib R) (ρ : Interp R) : Prop where
  var : ∀ v : String, L.var v.toList = ρ.var v
  field : ∀ (f : String) x, L.field f.toList x = ρ.field f x
  call : ∀ (f : String) xs, L.call f.toList xs = ρ.call f xs
  div : ∀ x a, L.div x a = ρ.div x a

/-- No arithmetic on two literals, no division of a literal, literals and divisors are `int`, factors with the same signature have the
same value, no function has a name that `show` brings in, and the other texts have their value. -/
def Ex.Meant (C : Cfg) (L : Lib R) (ρ : Interp R) (O : String → Tree) : Ex → Prop
  | .var _ _ => True
  | .int n => -2 ^ 31 < n ∧ n < 2 ^ 31
  | .field x _ _ => x.Meant C L ρ O ∧ x.unint = none
  | .neg x _ => x.Meant C L ρ O ∧ x.unint = none
  | .add x y _ => x.Meant C L ρ O ∧ y.Meant C L ρ O ∧ (x.unint = none ∨ y.unint = none)
  | .sub x y _ => x.Meant C L ρ O ∧ y.Meant C L ρ O ∧ (x.unint = none ∨ y.unint = none)
  | .mul x y _ => x.Meant C L ρ O ∧ y.Meant C L ρ O ∧
    if ∀ i, x.sig C i = y.sig C i then x.unint = none ∧ x.val ρ = y.val ρ else x.unint = none ∨ y.unint = none
  | .div x a _ => x.Meant C L ρ O ∧ x.unint = none ∧ 0 < a ∧ a < 2 ^ 31
  | .call1 f x _ => f.toList ∉ reserved ∧ x.Meant C L ρ O
  | .call2 f x y _ => f.toList ∉ reserved ∧ x.Meant C L ρ O ∧ y.Meant C L ρ O
  | .call3 f x y z _ => f.toList ∉ reserved ∧ x.Meant C L ρ O ∧ y.Meant C L ρ O ∧ z.Meant C L ρ O
  | .other t _ _ => eval L (O t) = some (.num (ρ.other t))

omit [CommRing R] in
theorem fits_of {n : ℤ} (h : -2 ^ 31 < n) (h' : n < 2 ^ 31) : (fits n : Option (Val R)) = some (.int n) := if_pos ⟨h.le, h'⟩

theorem eval_num (L : Lib R) (m : ℕ) : eval L (.num (Nat.toDigits 10 m)) = fits m := by
  rw [eval, digits_val]

theorem eval_neg (L : Lib R) {t : Tree} {m : ℤ} (h : eval L t = some (.int m)) : eval L (.neg t) = fits (-m) := by
  rw [eval, h]

theorem eval_intTree (L : Lib R) {n : ℤ} (h1 : -2 ^ 31 < n) (h2 : n < 2 ^ 31) : eval L (intTree n) = some (.int n) := by
  unfold intTree
  split_ifs with h
  · have e : ((n.natAbs : ℕ) : ℤ) = -n := Int.ofNat_natAbs_of_nonpos h.le
    have h3 : -2 ^ 31 < -n := neg_lt_neg h2
    have h4 : -n < 2 ^ 31 := by have := neg_lt_neg h1; rwa [neg_neg] at this
    rw [eval_neg L (m := -n), neg_neg, fits_of h1 h2]
    rw [eval_num, e, fits_of h3 h4]
  · have e : ((n.natAbs : ℕ) : ℤ) = n := Int.natAbs_of_nonneg (not_lt.mp h)
    rw [eval_num, e, fits_of h1 h2]

/-- The value of a text: an `int` exactly for literals. -/
def Is (e : Ex) (r : R) : Option (Val R) → Prop
  | some (.int n) => e.unint = some n ∧ r = n
  | some (.num x) => e.unint = none ∧ r = x
  | none => False

theorem Is.num {e : Ex} {r : R} {v : Option (Val R)} (h : Is e r v) (he : e.unint = none) : v = some (.num r) := by
  cases v with
  | none => exact h.elim
  | some v =>
    cases v with
    | int n => exact absurd h.1 (by rw [he]; simp)
    | num x => rw [h.2]

theorem Is.some {e : Ex} {r : R} {v : Option (Val R)} (h : Is e r v) : ∃ w, v = some w ∧ w.to = r := by
  cases v with
  | none => exact h.elim
  | some v =>
    cases v with
    | int n => exact ⟨_, rfl, h.2.symm⟩
    | num x => exact ⟨_, rfl, h.2.symm⟩

theorem binary_num (L : Lib R) {e e' : Ex} {r r' : R} {v w : Option (Val R)} (h : Is e r v) (h' : Is e' r' w)
    (hn : e.unint = none ∨ e'.unint = none) :
    ∃ a b, v = some a ∧ w = some b ∧ binary L '+' a b = some (.num (r + r')) ∧ binary L '-' a b = some (.num (r - r')) ∧
      binary L '*' a b = some (.num (r * r')) := by
  cases v with
  | none => exact h.elim
  | some a =>
    cases w with
    | none => exact h'.elim
    | some b =>
      refine ⟨a, b, rfl, rfl, ?_⟩
      cases a with
      | int n =>
        cases b with
        | int m => exact absurd hn (by rw [h.1, h'.1]; simp)
        | num x => simp [binary, Val.to, h.2, h'.2]
      | num y =>
        cases b with
        | int m => simp [binary, Val.to, h.2, h'.2]
        | num x => simp [binary, Val.to, h.2, h'.2]

theorem two_of {e : Ex} (h : e.isTwo = true) : e = .int 2 := by
  cases e <;> simp [Ex.isTwo, Ex.unint] at h
  rw [h]

theorem apply_other (L : Lib R) {f : List Char} (h : f ∉ reserved) (vs : List (Val R)) :
    apply L f vs = some (.num (L.call f (vs.map Val.to))) := by
  simp only [reserved, List.mem_cons, List.not_mem_nil, or_false, not_or] at h
  unfold apply
  rw [if_neg h.1, if_neg h.2.1, if_neg h.2.2.1, if_neg h.2.2.2]

theorem singleBit_iff {a : ℕ} (h : singleBit a = true) : ∃ k < 32, a = 2 ^ k := by
  unfold singleBit at h
  rw [List.any_eq_true] at h
  obtain ⟨k, hk, e⟩ := h
  exact ⟨k, List.mem_range.mp hk, by simpa using e⟩

theorem eval_tree {C : Cfg} {L : Lib R} {ρ : Interp R} {O : String → Tree} (ha : Agree L ρ) : ∀ (e : Ex), e.Meant C L ρ O →
    Is e (e.val ρ) (eval L (e.tree C O)) := by
  intro e
  induction e with
  | var v s =>
    intro _
    rw [Ex.tree, eval]
    exact ⟨rfl, (ha.var v).symm⟩
  | int n =>
    intro h
    rw [Ex.tree, eval_intTree L h.1 h.2]
    exact ⟨rfl, rfl⟩
  | field x f s ih =>
    intro h
    rw [Ex.tree, eval, (ih h.1).num h.2]
    exact ⟨rfl, by rw [ha.field]; rfl⟩
  | neg x s ih =>
    intro h
    rw [Ex.tree, eval, (ih h.1).num h.2]
    exact ⟨rfl, rfl⟩
  | add x y s ihx ihy =>
    intro h
    obtain ⟨a, b, e1, e2, h1, _, _⟩ := binary_num L (ihx h.1) (ihy h.2.1) h.2.2
    rw [Ex.tree, eval, e1, e2]
    simp only [h1]
    exact ⟨rfl, rfl⟩
  | sub x y s ihx ihy =>
    intro h
    obtain ⟨a, b, e1, e2, _, h1, _⟩ := binary_num L (ihx h.1) (ihy h.2.1) h.2.2
    rw [Ex.tree, eval, e1, e2]
    simp only [h1]
    exact ⟨rfl, rfl⟩
  | mul x y s ihx ihy =>
    intro h
    obtain ⟨h1, h2, h3⟩ := h
    rw [Ex.tree]
    by_cases hs : ∀ i, x.sig C i = y.sig C i
    · rw [if_pos hs] at h3 ⊢
      rw [eval, evalArgs, (ihx h1).num h3.1, evalArgs]
      exact ⟨rfl, by rw [Ex.val, ← h3.2]⟩
    · rw [if_neg hs] at h3 ⊢
      by_cases hx : x.isTwo = true
      · rw [if_pos hx]
        have e := two_of hx
        subst e
        have hy : y.unint = none := by
          rcases h3 with h3 | h3
          · simp [Ex.unint] at h3
          · exact h3
        rw [eval, evalArgs, (ihy h2).num hy, evalArgs]
        exact ⟨rfl, by simp only [Ex.val]; push_cast; ring⟩
      · rw [if_neg hx]
        by_cases hy : y.isTwo = true
        · rw [if_pos hy]
          have e := two_of hy
          subst e
          have hx' : x.unint = none := by
            rcases h3 with h3 | h3
            · exact h3
            · simp [Ex.unint] at h3
          rw [eval, evalArgs, (ihx h1).num hx', evalArgs]
          exact ⟨rfl, by simp only [Ex.val]; push_cast; ring⟩
        · rw [if_neg hy]
          obtain ⟨a, b, e1, e2, _, _, h4⟩ := binary_num L (ihx h1) (ihy h2) h3
          rw [eval, e1, e2]
          simp only [h4]
          exact ⟨rfl, rfl⟩
  | div x a s ihx =>
    intro h
    obtain ⟨h1, h2, h3, h4⟩ := h
    have hx := (ihx h1).num h2
    rw [Ex.tree]
    split_ifs with e1 e2
    · rw [eval, evalArgs, hx, evalArgs]
      exact ⟨rfl, by rw [Ex.val, ha.div, e1]⟩
    · obtain ⟨k, hk, ek⟩ := singleBit_iff e2.2
      have ep : padicValNat 2 a.toNat = k := by rw [ek]; exact padicValNat.prime_pow k
      have ea : a = 2 ^ k := by
        have : ((a.toNat : ℕ) : ℤ) = a := by omega
        rw [← this, ek]; push_cast; rfl
      have hk0 : k ≠ 0 := by
        rintro rfl
        rw [ea] at e2; norm_num at e2
      have e3 : eval L (.neg (intTree (padicValNat 2 a.toNat))) = some (.int (-(k : ℤ))) := by
        rw [eval, ep, eval_intTree L (by omega) (by omega)]
        exact fits_of (by omega) (by omega)
      rw [eval, evalArgs, hx, evalArgs, e3, evalArgs]
      have e4 : (-(k : ℤ)) < 0 := by omega
      have e5 : (-(k : ℤ)).natAbs = k := by omega
      refine ⟨rfl, ?_⟩
      rw [if_pos e4, e5, ha.div, Ex.val, ea]
    · rw [eval, hx, eval_intTree L (by omega) h4]
      exact ⟨rfl, by rw [Ex.val, ← ha.div]⟩
  | call1 f x s ihx =>
    intro h
    obtain ⟨v, e1, e2⟩ := (ihx h.2).some
    rw [Ex.tree, eval, evalArgs, e1, evalArgs]
    simp only [apply_other L h.1]
    exact ⟨rfl, by rw [ha.call]; simp [Ex.val, e2]⟩
  | call2 f x y s ihx ihy =>
    intro h
    obtain ⟨v, e1, e2⟩ := (ihx h.2.1).some
    obtain ⟨w, e3, e4⟩ := (ihy h.2.2).some
    rw [Ex.tree, eval, evalArgs, e1, evalArgs, e3, evalArgs]
    simp only [apply_other L h.1]
    exact ⟨rfl, by rw [ha.call]; simp [Ex.val, e2, e4]⟩
  | call3 f x y z s ihx ihy ihz =>
    intro h
    obtain ⟨v, e1, e2⟩ := (ihx h.2.1).some
    obtain ⟨w, e3, e4⟩ := (ihy h.2.2.1).some
    obtain ⟨u, e5, e6⟩ := (ihz h.2.2.2).some
    rw [Ex.tree, eval, evalArgs, e1, evalArgs, e3, evalArgs, e5, evalArgs]
    simp only [apply_other L h.1]
    exact ⟨rfl, by rw [ha.call]; simp [Ex.val, e2, e4, e6]⟩
  | other t q s =>
    intro h
    have h : eval L (O t) = some (.num (ρ.other t)) := h
    rw [Ex.tree, h]
    exact ⟨rfl, rfl⟩

end

end Mandelbrot.Sym
