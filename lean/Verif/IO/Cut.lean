import Verif.IO.ReadBack

/-!
# Files that end early
-/

namespace Mandelbrot.IO

variable {K : Type}

theorem unlines_cons (l : Str) (ls : List Str) : unlines (l :: ls) = l ++ '\n' :: unlines ls := by
  simp [unlines]

/-- A prefix of a text consists of complete lines and a part of the next one. -/
theorem prefix_unlines {ls : List Str} {pre : Str} (h : pre <+: unlines ls) :
    ∃ m q, m ≤ ls.length ∧ pre = unlines (ls.take m) ++ q ∧ (q = [] ∨ ∃ l, ls[m]? = some l ∧ q <+: l) := by
  induction ls generalizing pre with
  | nil =>
    refine ⟨0, [], le_rfl, ?_, Or.inl rfl⟩
    have : pre = [] := List.prefix_nil.mp h
    rw [this]; rfl
  | cons l ls ih =>
    rw [unlines_cons] at h
    by_cases hl : pre.length ≤ l.length
    · exact ⟨0, pre, Nat.zero_le _, rfl, Or.inr ⟨l, rfl, List.prefix_of_prefix_length_le h ⟨_, rfl⟩ hl⟩⟩
    · obtain ⟨t, rfl⟩ := List.prefix_of_prefix_length_le (l₁ := l) ⟨_, rfl⟩ h (by omega)
      rw [List.prefix_append_right_inj] at h
      cases t with
      | nil => simp at hl
      | cons c t =>
        obtain ⟨rfl, ht⟩ := List.cons_prefix_cons.mp h
        obtain ⟨m, q, hm, rfl, hq⟩ := ih ht
        refine ⟨m + 1, q, by simpa using hm, ?_, by simpa using hq⟩
        rw [List.take_succ_cons, unlines_cons, List.append_assoc, List.cons_append]

theorem newline_prefix {q l : Str} (h : q <+: l) (hl : '\n' ∉ l) : '\n' ∉ q := fun hq => hl (h.subset hq)

theorem getlines_cut {ls : List Str} (h : ∀ l ∈ ls, '\n' ∉ l) {q : Str} (hq : '\n' ∉ q) :
    getlines (unlines ls ++ q) = ls ++ if q = [] then [] else [q] := by
  rw [unlines, getlines_lines ls h]
  congr 1
  split_ifs with h0
  · subst h0; rfl
  · exact getlines_last hq h0

/-- Once both counts are known they stay, and a line adds at most one coefficient. -/
theorem readLine_stable {parse : Str → Res K} {J : Junk K} {st st' : Rd K} {l : Str} (hk : 0 ≤ st.known)
    (hn : 0 ≤ st.nonzero) (ht : 0 ≤ st.terms) (h : readLine parse J st l = .ok st') :
    st'.known = st.known ∧ st'.nonzero = st.nonzero ∧ 0 ≤ st'.terms ∧ st'.terms ≤ st.terms + 1 := by
  rw [readLine] at h
  cases e : trim l with
  | nil =>
    rw [e] at h
    cases h
    exact ⟨rfl, rfl, ht, by omega⟩
  | cons c v =>
    rw [e] at h
    simp only [] at h
    split_ifs at h with hc
    · have hr : readCounts (trim v) st.known st.nonzero = .ok (st.known, st.nonzero) ∨
          ∃ e, readCounts (trim v) st.known st.nonzero = .error e := by
        rw [readCounts]
        split_ifs
        · right; rw [slowAssert_false (by omega)]; exact ⟨_, rfl⟩
        · right; rw [slowAssert_false (by omega)]; exact ⟨_, rfl⟩
        · right; rw [slowAssert_false (by omega)]; exact ⟨_, rfl⟩
        · left; rfl
      rcases hr with hr | ⟨e, hr⟩
      · rw [hr, bok] at h
        simp only [] at h
        rw [if_pos ⟨hk, hn⟩] at h
        by_cases h1 : st.known ≥ st.nonzero
        · rw [slowAssert_true h1, bok] at h
          cases e2 : (Ser.new st.nonzero (J [(st.comments ++ [trim v]).length])).setCounts st.known st.nonzero with
          | error e => rw [e2] at h; cases h
          | ok x =>
            rw [e2] at h
            cases h
            exact ⟨rfl, rfl, le_rfl, by simp only; omega⟩
        · rw [slowAssert_false h1] at h; cases h
      · rw [hr] at h; cases h
    · by_cases h1 : st.terms ≥ 0 ∧ st.terms < st.nonzero
      · rw [slowAssert_true h1, bok] at h
        cases e2 : parse (c :: v) with
        | error e => rw [e2] at h; cases h
        | ok a =>
          rw [e2] at h
          cases h
          exact ⟨rfl, rfl, by simp only; omega, by simp only; omega⟩
      · rw [slowAssert_false h1] at h; cases h

theorem readLines_stable {parse : Str → Res K} {J : Junk K} {st st' : Rd K} {ls : List Str} (hk : 0 ≤ st.known)
    (hn : 0 ≤ st.nonzero) (ht : 0 ≤ st.terms) (h : readLines parse J ls st = .ok st') :
    st'.nonzero = st.nonzero ∧ st'.terms ≤ st.terms + ls.length := by
  induction ls generalizing st with
  | nil => cases h; exact ⟨rfl, by simp⟩
  | cons l ls ih =>
    rw [readLines] at h
    cases e : readLine parse J st l with
    | error e' => rw [e] at h; cases h
    | ok s =>
      rw [e, bok] at h
      obtain ⟨h1, h2, h3, h4⟩ := readLine_stable hk hn ht e
      obtain ⟨h5, h6⟩ := ih (by omega) (by omega) h3 h
      exact ⟨by omega, by rw [List.length_cons]; push_cast; omega⟩

/-- A comment after the counts starts over. -/
theorem readLine_comment_terms {parse : Str → Res K} {J : Junk K} {st st' : Rd K} {l : Str} (hk : 0 ≤ st.known)
    (hn : 0 ≤ st.nonzero) (h : readLine parse J st ('#' :: l) = .ok st') :
    st'.known = st.known ∧ st'.nonzero = st.nonzero ∧ st'.terms = 0 := by
  rw [readLine, trim_hash] at h
  simp only [if_true] at h
  have hr : readCounts (trim l) st.known st.nonzero = .ok (st.known, st.nonzero) ∨
      ∃ e, readCounts (trim l) st.known st.nonzero = .error e := by
    rw [readCounts]
    split_ifs
    · right; rw [slowAssert_false (by omega)]; exact ⟨_, rfl⟩
    · right; rw [slowAssert_false (by omega)]; exact ⟨_, rfl⟩
    · right; rw [slowAssert_false (by omega)]; exact ⟨_, rfl⟩
    · left; rfl
  rcases hr with hr | ⟨e, hr⟩
  · rw [hr, bok] at h
    simp only [] at h
    rw [if_pos ⟨hk, hn⟩] at h
    by_cases h1 : st.known ≥ st.nonzero
    · rw [slowAssert_true h1, bok] at h
      cases e2 : (Ser.new st.nonzero (J [(st.comments ++ [trim l]).length])).setCounts st.known st.nonzero with
      | error e => rw [e2] at h; cases h
      | ok x => rw [e2] at h; cases h; exact ⟨rfl, rfl, rfl⟩
    · rw [slowAssert_false h1] at h; cases h
  · rw [hr] at h; cases h

theorem readSeries_ok {parse : Str → Res K} {J : Junk K} {file : Str} {st : Rd K}
    (h : readLines parse J (getlines file) (Rd.init (J [])) = .ok st) (ht : st.terms = st.nonzero) :
    readSeries parse J file = .ok (st.comments, st.x) := by
  rw [readSeries, h, bok, slowAssert_true ht, bok, pok]

theorem readSeries_error {parse : Str → Res K} {J : Junk K} {file : Str}
    (h : ∀ st, readLines parse J (getlines file) (Rd.init (J [])) = .ok st → st.terms ≠ st.nonzero) :
    ∃ e, readSeries parse J file = .error e := by
  rw [readSeries]
  cases e : readLines parse J (getlines file) (Rd.init (J [])) with
  | error e' => exact ⟨e', rfl⟩
  | ok st => exact ⟨_, by rw [bok, slowAssert_false (h st e), berr]⟩

/-- A line that only adds a comment as long as the second count is missing. -/
def Note (parse : Str → Res K) (J : Junk K) (l : Str) : Prop :=
  ∀ st : Rd K, st.nonzero < 0 → ∃ cs, readLine parse J st l = .ok { st with comments := cs }

theorem note_nil (parse : Str → Res K) (J : Junk K) : Note parse J [] := fun st _ => ⟨st.comments, rfl⟩

theorem note_hash {parse : Str → Res K} {J : Junk K} {v : Str} (h1 : ¬kw "known =" <+: trim v)
    (h2 : ¬kw "nonzero =" <+: trim v) (h3 : ¬kw "terms =" <+: trim v) : Note parse J ('#' :: v) := by
  intro st hn
  refine ⟨st.comments ++ [trim v], ?_⟩
  rw [readLine, trim_hash]
  simp only [if_true]
  rw [readCounts_plain h1 h2 h3, bok]
  simp only []
  rw [if_neg (by omega)]; rfl

/-- A part of a comment. -/
theorem note_comment {parse : Str → Res K} {J : Junk K} {c l : Str} (hp : Plain c) (hl : l <+: kw "# " ++ c) :
    Note parse J l := by
  cases l with
  | nil => exact note_nil parse J
  | cons d v =>
    obtain ⟨rfl, hv⟩ := List.cons_prefix_cons.mp (show (d :: v) <+: '#' :: ' ' :: c from hl)
    have hkw : ∀ w : Str, w ≠ [] → ¬w <+: trim c → ¬w <+: trim v := by
      intro w hw hwc hwv
      have hne : trim v ≠ [] := by
        rintro h0; rw [h0, List.prefix_nil] at hwv; exact hw hwv
      have := trim_prefix hv hne
      rw [trim_space] at this
      exact hwc (hwv.trans this)
    exact note_hash (hkw _ (by decide) hp.1) (hkw _ (by decide) hp.2.1) (hkw _ (by decide) hp.2.2)

/-- A part of the line with the second count, before the equality sign. -/
theorem note_nonzero {parse : Str → Res K} {J : Junk K} {l : Str} (hl : l <+: kw "# nonzero ") : Note parse J l := by
  cases l with
  | nil => exact note_nil parse J
  | cons d v =>
    obtain ⟨rfl, hv⟩ := List.cons_prefix_cons.mp (show (d :: v) <+: '#' :: kw " nonzero " from hl)
    have key : ∀ v ∈ (kw " nonzero ").inits, ¬kw "known =" <+: trim v ∧ ¬kw "nonzero =" <+: trim v ∧
        ¬kw "terms =" <+: trim v := by decide
    obtain ⟨h1, h2, h3⟩ := key v ((List.mem_inits _ _).mpr hv)
    exact note_hash h1 h2 h3

/-- A part of the line with the first count, before the equality sign. -/
theorem note_known {parse : Str → Res K} {J : Junk K} {l : Str} (hl : l <+: kw "# known ") : Note parse J l := by
  cases l with
  | nil => exact note_nil parse J
  | cons d v =>
    obtain ⟨rfl, hv⟩ := List.cons_prefix_cons.mp (show (d :: v) <+: '#' :: kw " known " from hl)
    have key : ∀ v ∈ (kw " known ").inits, ¬kw "known =" <+: trim v ∧ ¬kw "nonzero =" <+: trim v ∧
        ¬kw "terms =" <+: trim v := by decide
    obtain ⟨h1, h2, h3⟩ := key v ((List.mem_inits _ _).mpr hv)
    exact note_hash h1 h2 h3

theorem readLines_notes {parse : Str → Res K} {J : Junk K} {ls : List Str} (h : ∀ l ∈ ls, Note parse J l) {st : Rd K}
    (hn : st.nonzero < 0) : ∃ cs, readLines parse J ls st = .ok { st with comments := cs } := by
  induction ls generalizing st with
  | nil => exact ⟨st.comments, rfl⟩
  | cons l ls ih =>
    obtain ⟨cs, e⟩ := h l (by simp) st hn
    obtain ⟨cs', e'⟩ := ih (fun l hl => h l (by simp [hl])) (st := { st with comments := cs }) hn
    exact ⟨cs', by rw [readLines, e, bok, e']⟩

/-- A part of the line with the first count: at worst the missing number is noticed. -/
theorem readLine_part_known {parse : Str → Res K} {J : Junk K} {st : Rd K} (hk : st.known < 0) (hn : st.nonzero < 0)
    {s l : Str} (hl : l <+: kw "# known =" ++ s) :
    (∃ known cs, readLine parse J st l = .ok { st with known := known, comments := cs }) ∨
      readLine parse J st l = .error .exception := by
  by_cases hlen : l.length ≤ 8
  · left
    obtain ⟨cs, e⟩ := note_known (parse := parse) (J := J) (List.prefix_of_prefix_length_le hl
      (show kw "# known " <+: kw "# known =" ++ s from ⟨'=' :: s, rfl⟩) hlen) st hn
    exact ⟨st.known, cs, e⟩
  · obtain ⟨t, rfl⟩ := List.prefix_of_prefix_length_le (l₁ := kw "# known =") ⟨s, rfl⟩ hl
      (by rw [show (kw "# known =").length = 9 by decide]; omega)
    rw [readLine_known hk hn, number]
    cases stol t with
    | error e => right; rfl
    | ok i =>
      simp only []
      split_ifs
      · left; exact ⟨_, _, rfl⟩
      · right; rfl

end Mandelbrot.IO
