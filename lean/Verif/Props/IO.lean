import Verif.IO.Cut
import Verif.IO.Expansion

/-!
# Series files (C32, C33)
-/

namespace Mandelbrot.Props

open _root_.Mandelbrot.IO

variable {K : Type}

/-! ## C32 -/

/-- What the caller of `write_series` has to provide: comments and time string of one line each that do not look like a
count, and numbers the formatter and parser agree on. -/
structure Writable (fmt : K → Str) (parse : Str → Res K) (comments : List Str) (time : Str) (x : Ser K) (k n : ℕ) : Prop where
  known : x.known = k
  nonzero : x.nonzero = n
  le : n ≤ k
  fits : k < 2 ^ 63
  comments : ∀ c ∈ comments, '\n' ∉ c ∧ Plain c
  time : '\n' ∉ time ∧ Plain time
  codec : ∀ i < n, Codec fmt parse (x.data i)

theorem Writable.newline {fmt : K → Str} {parse : Str → Res K} {comments : List Str} {time : Str} {x : Ser K} {k n : ℕ}
    (w : Writable fmt parse comments time x k n) : ∀ l ∈ comments.map (kw "# " ++ ·) ++ (kw "# known = " ++ showNat k) ::
      (kw "# nonzero = " ++ showNat n) :: (kw "# " ++ time) :: termLines fmt x.data 0 n, '\n' ∉ l := by
  intro l hl hm
  have hk : ∀ s ∈ [kw "# ", kw "# known = ", kw "# nonzero = "], '\n' ∉ s := by decide
  simp only [List.mem_append, List.mem_map, List.mem_cons, termLines, List.mem_range'_1] at hl
  rcases hl with ⟨c, hc, rfl⟩ | rfl | rfl | rfl | ⟨i, hi, rfl⟩
  · rcases List.mem_append.mp hm with h | h
    · exact hk _ (by simp) h
    · exact (w.comments c hc).1 h
  · rcases List.mem_append.mp hm with h | h
    · exact hk _ (by simp) h
    · exact newline_showNat _ h
  · rcases List.mem_append.mp hm with h | h
    · exact hk _ (by simp) h
    · exact newline_showNat _ h
  · rcases List.mem_append.mp hm with h | h
    · exact hk _ (by simp) h
    · exact w.time.1 h
  · exact (w.codec i (by omega)).line hm

/-- C32.  Whatever the number of threads and their interleaving, and whatever the batch size, what `write_series` leaves in
the file is read back by `read_series` as the comments without leading white space followed by the three comments the
writer adds, and a series with the same counts and coefficients. -/
theorem C32_roundtrip {fmt : K → Str} {parse : Str → Res K} {comments : List Str} {time : Str} {x : Ser K} {k n : ℕ}
    (w : Writable fmt parse comments time x k n) {batch : ℤ} (hb : 1 ≤ batch) {file : Str}
    (h : WriteSeries fmt comments time x batch file) (J : Junk K) :
    ∃ y : Ser K, readSeries parse J file =
        .ok (comments.map trim ++ [kw "known = " ++ showNat k, kw "nonzero = " ++ showNat n, trim time], y) ∧
      y.known = x.known ∧ y.nonzero = x.nonzero ∧ y.limit = x.nonzero ∧ ∀ i < n, y.data i = x.data i := by
  have hf := written_lines hb w.known w.nonzero h
  have hg : getlines file = comments.map (kw "# " ++ ·) ++ (kw "# known = " ++ showNat k) :: (kw "# nonzero = " ++ showNat n) ::
      (kw "# " ++ time) :: termLines fmt x.data 0 n := by
    have := getlines_cut w.newline (q := []) (by simp)
    rw [List.append_nil] at this
    rw [hf, this]
    simp
  have hl : readLines parse J (getlines file) (Rd.init (J [])) = .ok ⟨k, n, n,
      comments.map trim ++ [kw "known = " ++ showNat k, kw "nonzero = " ++ showNat n, trim time],
      ⟨n, k, n, fun i => if 0 ≤ i ∧ i < 0 + n then x.data i else J [comments.length + 3] i⟩⟩ := by
    rw [hg, show ∀ (a : List Str) (b c d : Str) (e : List Str), a ++ b :: c :: d :: e = (a ++ [b, c]) ++ d :: e by simp,
      readLines_append, readLines_header comments (fun c hc => (w.comments c hc).2) w.fits w.le, bok, readLines,
      readLine_late w.time.2 rfl rfl w.le, bok,
      readLines_terms (fun i _ hi => w.codec i (by omega)) rfl (by simp)]
    simp
  refine ⟨_, readSeries_ok hl rfl, w.known.symm, w.nonzero.symm, w.nonzero.symm, fun i hi => ?_⟩
  exact if_pos ⟨Nat.zero_le _, by omega⟩

/-- C32.  With a positive batch size there is such a file; with any other the call does not end unless there is nothing to
write. -/
theorem C32_writes (fmt : K → Str) (comments : List Str) (time : Str) (x : Ser K) (n : ℕ) (hn : x.nonzero = n) (batch : ℤ) :
    (∃ file, WriteSeries fmt comments time x batch file) ↔ 1 ≤ batch ∨ n = 0 := by
  constructor
  · rintro ⟨file, r, hr, -⟩
    by_contra h
    push Not at h
    exact batches_none (by omega) (start := 0) (by omega) hr
  · intro h
    by_cases hb : 1 ≤ batch
    · obtain ⟨r, hr⟩ := batches_exists fmt x.data n hb 0
      exact ⟨_, r, by rw [hn]; exact_mod_cast hr, rfl⟩
    · exact ⟨_, [], .stop (by omega), rfl⟩

/-- C32.  What `safe` prints for an expansion is read back as the same expansion by the string constructor, whichever of the
two forms it chooses, provided `strtod` reads back what `%.17g` prints for its parts.  Nothing is asked of the conversion from
decimal texts, because `safe` checks it. -/
theorem C32_expansion {D : Type} [DecidableEq D] {fmt : D → Str} {decimal : ℕ → List D → Str} {strtod : Str → Option (D × Str)}
    {nice : Str → Res (List D)} (hsp : ∀ s, strtod (' ' :: s) = strtod s) {x : List D} (h0 : x ≠ [])
    (hx : ∀ d ∈ x, DoubleCodec fmt strtod d)
    (hdec : ∀ p, (∃ c l, decimal p x = c :: l ∧ isSpace c = false ∧ c ≠ '#') ∧ '\n' ∉ decimal p x)
    {text : List D → Str} (h : safeText fmt decimal strtod nice x.length x = .ok (text x)) :
    Codec text (readExpansion strtod nice x.length) x := by
  rw [safeText] at h
  cases e : maybeNice strtod nice x.length x ((List.range' (15 * x.length - 2) (15 * x.length + 3)).map (decimal · x)) with
  | error e' => rw [e] at h; cases h
  | ok s =>
    rw [e, bok, pok] at h
    replace h := Except.ok.inj h
    by_cases hs : s = []
    · rw [if_neg (by simpa using hs)] at h
      refine ⟨?_, ?_, ?_⟩
      · rw [← h, spanText, List.append_assoc, show ∀ t, kw "[" ++ t = '[' :: t from fun _ => rfl, readExpansion, if_pos rfl]
        exact readParts_span hsp hx h0
      · exact ⟨'[', _, by rw [← h]; rfl, by decide, by decide⟩
      · rw [← h, spanText]
        simp only [List.mem_append, not_or]
        refine ⟨⟨by decide, ?_⟩, by decide⟩
        clear h e hdec h0
        induction x with
        | nil => simp [List.intercalate]
        | cons d x ih =>
          have h1 := (hx d (by simp)).line
          cases x with
          | nil => simpa using h1
          | cons d' x =>
            rw [List.map_cons, List.map_cons, List.intercalate_cons_cons]
            simp only [List.mem_append, not_or]
            exact ⟨⟨h1, by decide⟩, ih (fun e he => hx e (List.mem_cons_of_mem _ he))⟩
    · rw [if_pos hs] at h
      rcases maybeNice_ok e with h1 | ⟨h1, h2⟩
      · exact absurd h1 hs
      · obtain ⟨p, -, hp⟩ := List.mem_map.mp h1
        have := hdec p
        rw [hp, h] at this
        rw [h] at h2
        exact ⟨h2, this.1, this.2⟩

/-- Comments that look like a count are not allowed, and rightly so: a comment `nonzero = 5` makes the file unreadable. -/
theorem C32_comment_witness {fmt : K → Str} {parse : Str → Res K} {comments : List Str} {time : Str} {x : Ser K} {k n : ℕ}
    (w : Writable fmt parse comments time x k n) {batch : ℤ} (hb : 1 ≤ batch) {file : Str}
    (h : WriteSeries fmt (kw "nonzero = 5" :: comments) time x batch file) (J : Junk K) :
    ∃ e, readSeries parse J file = .error e := by
  have hf := written_lines hb w.known w.nonzero h
  have hnl : ∀ l ∈ (kw "nonzero = 5" :: comments).map (kw "# " ++ ·) ++ (kw "# known = " ++ showNat k) ::
      (kw "# nonzero = " ++ showNat n) :: (kw "# " ++ time) :: termLines fmt x.data 0 n, '\n' ∉ l := by
    intro l hl
    rw [List.map_cons, List.cons_append, List.mem_cons] at hl
    rcases hl with rfl | hl
    · decide
    · exact w.newline l hl
  have hg : getlines file = (kw "nonzero = 5" :: comments).map (kw "# " ++ ·) ++ (kw "# known = " ++ showNat k) ::
      (kw "# nonzero = " ++ showNat n) :: (kw "# " ++ time) :: termLines fmt x.data 0 n := by
    have := getlines_cut hnl (q := []) (by simp)
    rw [List.append_nil] at this
    rw [hf, this]
    simp
  apply readSeries_error
  intro st hst
  exfalso
  rw [hg, List.map_cons, List.cons_append, readLines] at hst
  have e1 : readLine parse J (Rd.init (J [])) (kw "# " ++ kw "nonzero = 5") =
      .ok ⟨-1, 5, -1, [kw "nonzero = 5"], Ser.new 0 (J [])⟩ := by
    rw [show kw "# " ++ kw "nonzero = 5" = '#' :: ' ' :: kw "nonzero = 5" from rfl, readLine, trim_hash]
    rfl
  rw [e1, bok, readLines_append, readLines_comments comments (fun c hc => (w.comments c hc).2) (Or.inl (by simp)), bok,
    readLines] at hst
  have key : ∀ st : Rd K, 0 ≤ st.nonzero → ∀ ls, readLines parse J ((kw "# nonzero = " ++ showNat n) :: ls) st = .error .assertion := by
    intro st h0 ls
    rw [readLines, show kw "# nonzero = " ++ showNat n = '#' :: ' ' :: (kw "nonzero =" ++ (' ' :: showNat n)) from rfl, readLine,
      trim_hash]
    simp only [if_true, trim_space, trim_nonzero]
    have h1 : ¬(kw "known =").isPrefixOf (kw "nonzero =" ++ (' ' :: showNat n)) = true := by
      intro h
      rw [List.isPrefixOf_iff_prefix] at h
      obtain ⟨t, ht⟩ := h
      exact absurd (List.cons.inj ht).1 (by decide)
    rw [readCounts, if_neg h1, if_pos (by rw [List.isPrefixOf_iff_prefix]; exact ⟨_, rfl⟩), slowAssert_false (by omega)]
    rfl
  cases e2 : readLine parse J ⟨-1, 5, -1, [kw "nonzero = 5"] ++ comments.map trim, Ser.new 0 (J [])⟩
      (kw "# known = " ++ showNat k) with
  | error e => rw [e2] at hst; cases hst
  | ok st2 =>
    rw [e2, bok, key] at hst
    · cases hst
    · rw [show kw "# known = " ++ showNat k = '#' :: ' ' :: (kw "known =" ++ (' ' :: showNat k)) from rfl, readLine, trim_hash] at e2
      simp only [if_true, trim_space, trim_known] at e2
      rw [readCounts, if_pos (by rw [List.isPrefixOf_iff_prefix]; exact ⟨_, rfl⟩), slowAssert_true (by omega), bok,
        List.drop_left' (by decide), number_space, number_showNat w.fits] at e2
      simp only [bok, pok] at e2
      rw [if_pos (by omega)] at e2
      by_cases h5 : (k : ℤ) ≥ 5
      · rw [slowAssert_true h5, bok] at e2
        cases e3 : (Ser.new 5 (J [([kw "nonzero = 5"] ++ comments.map trim ++ [kw "known =" ++ ' ' :: showNat k]).length])).setCounts k 5 with
        | error e => rw [e3] at e2; cases e2
        | ok y => rw [e3] at e2; cases e2; simp
      · rw [slowAssert_false h5] at e2; cases e2

/-! Natural numbers below `2^63` as coefficients. -/

def exParse (s : Str) : Res ℕ := (number s).map Int.toNat

theorem exCodec {a : ℕ} (h : a < 2 ^ 63) : Codec showNat exParse a := by
  obtain ⟨d, l, e, hd, -, -⟩ := showNat_spec a
  refine ⟨by rw [exParse, number_showNat h]; rfl, ⟨_, l, e, isSpace_ofNat hd, ?_⟩, newline_showNat a⟩
  interval_cases d <;> decide

def exSeries : Ser ℕ := ⟨8, 5, 3, fun i => 10 * i + 7⟩

theorem exWritable : Writable showNat exParse [kw "g = log(f)", kw "  mu = 1.5"] (kw "time = now") exSeries 5 3 where
  known := rfl
  nonzero := rfl
  le := by omega
  fits := by omega
  comments := by unfold Plain; decide
  time := by unfold Plain; decide
  codec i hi := exCodec (by simp only [exSeries]; omega)

example (J : Junk ℕ) : ∃ file, WriteSeries showNat [kw "g = log(f)", kw "  mu = 1.5"] (kw "time = now") exSeries 2 file ∧
    ∃ cs y, readSeries exParse J file = .ok (cs, y) ∧ y.data 2 = 27 := by
  obtain ⟨file, h⟩ := (C32_writes showNat [kw "g = log(f)", kw "  mu = 1.5"] (kw "time = now") exSeries 3 rfl 2).mpr
    (Or.inl (by omega))
  obtain ⟨y, h1, -, -, -, h2⟩ := C32_roundtrip exWritable (by omega) h J
  exact ⟨file, h, _, y, h1, h2 2 (by omega)⟩

/-! ## C33 -/

/-- The file up to the line with the first count. -/
def upToKnown (comments : List Str) (k : ℕ) : Str :=
  unlines (comments.map (kw "# " ++ ·) ++ [kw "# known = " ++ showNat k])

/-- C33.  A file that ends after the `=` of the second count and before the last coefficient is refused. -/
theorem C33_detected {fmt : K → Str} {parse : Str → Res K} {comments : List Str} {time : Str} {x : Ser K} {k n : ℕ}
    (w : Writable fmt parse comments time x k (n + 1)) {batch : ℤ} (hb : 1 ≤ batch) {file : Str}
    (h : WriteSeries fmt comments time x batch file) {pre : Str} (hp : pre <+: file)
    (h1 : (upToKnown comments k ++ kw "# nonzero =").length ≤ pre.length)
    (h2 : pre.length + (fmt (x.data n)).length + 1 ≤ file.length) (J : Junk K) :
    ∃ e, readSeries parse J pre = .error e := by
  have hf := written_lines hb w.known w.nonzero h
  set A := comments.map (kw "# " ++ ·) ++ [kw "# known = " ++ showNat k] with hA
  set M := (kw "# nonzero = " ++ showNat (n + 1)) :: (kw "# " ++ time) :: termLines fmt x.data 0 n with hM
  have hlast : termLines fmt x.data 0 (n + 1) = termLines fmt x.data 0 n ++ [fmt (x.data n)] := by
    rw [termLines, termLines, List.range'_concat]; simp
  have hf' : file = unlines A ++ (unlines M ++ (fmt (x.data n) ++ ['\n'])) := by
    rw [hf, hlast, ← show unlines [fmt (x.data n)] = fmt (x.data n) ++ ['\n'] by simp [unlines], ← unlines_append,
      ← unlines_append, hA, hM]
    simp
  -- the part after the first count
  have hpM : pre <+: unlines A ++ unlines M := by
    refine List.prefix_of_prefix_length_le hp ⟨fmt (x.data n) ++ ['\n'], by rw [hf']; simp⟩ ?_
    rw [hf'] at h2
    simp only [List.length_append, List.length_cons, List.length_nil] at h2 ⊢
    omega
  rw [upToKnown, ← hA, List.length_append] at h1
  obtain ⟨p, rfl⟩ := List.prefix_of_prefix_length_le (l₁ := unlines A) ⟨unlines M, rfl⟩ hpM (by omega)
  rw [List.prefix_append_right_inj] at hpM
  rw [List.length_append] at h1
  obtain ⟨s, rfl⟩ := List.prefix_of_prefix_length_le (l₁ := kw "# nonzero =") (l₃ := unlines M)
    ⟨' ' :: showNat (n + 1) ++ '\n' :: unlines (M.tail), by rw [hM, unlines_cons, List.tail_cons]; simp [kw]⟩ hpM (by omega)
  have hnl := w.newline
  rw [hlast] at hnl
  have hnA : ∀ l ∈ A, '\n' ∉ l := fun l hl => hnl l (by
    rw [hA] at hl; simp only [List.mem_append, List.mem_cons] at hl ⊢; tauto)
  have hnM : ∀ l ∈ M, '\n' ∉ l := fun l hl => hnl l (by
    rw [hM] at hl; simp only [List.mem_append, List.mem_cons] at hl ⊢; tauto)
  obtain ⟨m, q, hm, hs, hq⟩ := prefix_unlines hpM
  have hqn : '\n' ∉ q := by
    rcases hq with rfl | ⟨l, hl, hql⟩
    · simp
    · exact newline_prefix hql (hnM l (List.mem_of_getElem? hl))
  rw [hs]
  have hgl : getlines (unlines A ++ (unlines (M.take m) ++ q)) = A ++ (M.take m ++ if q = [] then [] else [q]) := by
    rw [← List.append_assoc, ← unlines_append, getlines_cut _ hqn, List.append_assoc]
    intro l hl
    rcases List.mem_append.mp hl with hl | hl
    · exact hnA l hl
    · exact hnM l (List.mem_of_mem_take hl)
  apply readSeries_error
  intro st hst
  rw [hgl, readLines_append] at hst
  obtain ⟨st1, e1, hst⟩ : ∃ st1, readLines parse J A (Rd.init (J [])) = .ok st1 ∧
      readLines parse J (M.take m ++ if q = [] then [] else [q]) st1 = .ok st := by
    cases e : readLines parse J A (Rd.init (J [])) with
    | error e' => rw [e] at hst; cases hst
    | ok s => rw [e, bok] at hst; exact ⟨s, rfl, hst⟩
  have hst1 : st1 = ⟨k, -1, -1, comments.map trim ++ [kw "known = " ++ showNat k], Ser.new 0 (J [])⟩ := by
    have : readLines parse J A (Rd.init (J [])) = .ok ⟨k, -1, -1, comments.map trim ++ [kw "known = " ++ showNat k],
        Ser.new 0 (J [])⟩ := by
      rw [hA, readLines_append, readLines_comments comments (fun c hc => (w.comments c hc).2) (Or.inl (by simp [Rd.init])),
        bok, readLines, show kw "# known = " ++ showNat k = kw "# known =" ++ (' ' :: showNat k) from rfl,
        readLine_known (by simp [Rd.init]) (by simp [Rd.init]), number_space, number_showNat w.fits]
      simp [Except.map, bok, readLines, Rd.init, kw]
    rw [this] at e1
    exact (Except.ok.inj e1).symm
  subst hst1
  cases m with
  | zero =>
    -- inside the second count
    have hqe : kw "# nonzero =" ++ s = q := by rw [hs]; simp [unlines]
    have hq0 : q ≠ [] := by rw [← hqe]; simp [kw]
    have hq' : q <+: kw "# nonzero = " ++ showNat (n + 1) := by
      rcases hq with h | ⟨l, hl, hql⟩
      · exact absurd h hq0
      · rw [hM] at hl
        cases hl
        exact hql
    rw [← hqe, show kw "# nonzero = " ++ showNat (n + 1) = kw "# nonzero =" ++ (' ' :: showNat (n + 1)) from rfl,
      List.prefix_append_right_inj] at hq'
    rw [List.take_zero, List.nil_append, if_neg hq0, ← hqe, readLines] at hst
    have hnum : number s = .error .exception ∨ ∃ i, 0 < i ∧ number s = .ok i := by
      cases s with
      | nil => exact Or.inl number_nil
      | cons c s =>
        obtain ⟨rfl, hs'⟩ := List.cons_prefix_cons.mp hq'
        rw [number_space]
        by_cases h0 : s = []
        · subst h0; exact Or.inl number_nil
        · exact number_cut (by omega) hs' h0
    rcases hnum with hnum | ⟨i, hi, hnum⟩
    · rw [readLine_nonzero_error (by simp) hnum] at hst; cases hst
    · rw [readLine_nonzero (k := k) (n := i.toNat) rfl (by simp) (by rw [hnum, Int.toNat_of_nonneg hi.le])] at hst
      split_ifs at hst with hik
      · rw [bok, readLines] at hst
        cases hst
        simp only []
        omega
      · cases hst
  | succ m =>
    -- after the second count
    have hnn : n + 1 < 2 ^ 63 := lt_of_le_of_lt w.le w.fits
    rw [hM, List.take_succ_cons, List.cons_append, readLines,
      show kw "# nonzero = " ++ showNat (n + 1) = kw "# nonzero =" ++ (' ' :: showNat (n + 1)) from rfl,
      readLine_nonzero (k := k) (n := n + 1) rfl (by simp) (by rw [number_space, number_showNat hnn]), if_pos w.le, bok] at hst
    cases m with
    | zero =>
      rw [List.take_zero, List.nil_append] at hst
      split_ifs at hst with hq0
      · cases hst
        simp only []; omega
      · rcases hq with h | ⟨l, hl, hql⟩
        · exact absurd h hq0
        · rw [hM] at hl
          cases hl
          obtain ⟨c, v, rfl⟩ := List.exists_cons_of_ne_nil hq0
          obtain ⟨rfl, -⟩ := List.cons_prefix_cons.mp (show (c :: v) <+: '#' :: (' ' :: time) from hql)
          rw [readLines] at hst
          cases e : readLine parse J ⟨k, (n + 1 : ℕ), 0, comments.map trim ++ [kw "known = " ++ showNat k] ++
              [kw "nonzero =" ++ ' ' :: showNat (n + 1)], ⟨(n + 1 : ℕ), k, (n + 1 : ℕ),
              J [(comments.map trim ++ [kw "known = " ++ showNat k]).length + 1]⟩⟩ ('#' :: v) with
          | error e' => rw [e] at hst; cases hst
          | ok st2 =>
            rw [e, bok, readLines] at hst
            cases hst
            obtain ⟨-, h4, h5⟩ := readLine_comment_terms (by simp) (by simp; omega) e
            rw [h4, h5]
            simp only []
            omega
    | succ m =>
      rw [List.take_succ_cons, List.cons_append, readLines, readLine_late w.time.2 rfl rfl w.le, bok] at hst
      obtain ⟨h4, h5⟩ := readLines_stable (by simp) (by simp; omega) (by simp) hst
      rw [h4]
      simp only [] at h5 ⊢
      have hlen : ((termLines fmt x.data 0 n).take m ++ if q = [] then [] else [q]).length ≤ n := by
        have hD : (termLines fmt x.data 0 n).length = n := by simp [termLines]
        rw [List.length_append, List.length_take, hD]
        split_ifs with hq0
        · simp
        · rcases hq with h | ⟨l, hl, -⟩
          · exact absurd h hq0
          · have := (List.getElem?_eq_some_iff.mp hl).1
            rw [hM] at this
            simp only [List.length_cons, hD] at this
            simp only [List.length_cons, List.length_nil]
            omega
      push_cast at h5 ⊢
      omega

/-- C33.  A file that ends before the `=` of the second count is read as an empty series, unless it ends so badly inside the
first count that its number is missing. -/
theorem C33_silent {fmt : K → Str} {parse : Str → Res K} {comments : List Str} {time : Str} {x : Ser K} {k n : ℕ}
    (w : Writable fmt parse comments time x k n) {batch : ℤ} (hb : 1 ≤ batch) {file : Str}
    (h : WriteSeries fmt comments time x batch file) {pre : Str} (hp : pre <+: file)
    (h1 : pre.length < (upToKnown comments k ++ kw "# nonzero =").length) (J : Junk K) :
    (∃ cs, readSeries parse J pre = .ok (cs, Ser.new 0 (J []))) ∨ readSeries parse J pre = .error .exception := by
  have hf := written_lines hb w.known w.nonzero h
  set C := comments.map (kw "# " ++ ·) with hC
  have hCnote : ∀ l ∈ C, Note parse J l := by
    intro l hl
    obtain ⟨c, hc, rfl⟩ := List.mem_map.mp hl
    exact note_comment (w.comments c hc).2 List.prefix_rfl
  -- the lines that can be there
  have hpre : pre <+: unlines (C ++ [kw "# known = " ++ showNat k, kw "# nonzero "]) := by
    have h2 : upToKnown comments k ++ kw "# nonzero " <+: file := by
      rw [hf, upToKnown, ← hC, unlines_append, unlines_append, unlines_cons, unlines_cons]
      exact ⟨kw "= " ++ showNat n ++ '\n' :: unlines ((kw "# " ++ time) :: termLines fmt x.data 0 n), by
        simp [unlines, kw]⟩
    have h3 : upToKnown comments k ++ kw "# nonzero " <+: unlines (C ++ [kw "# known = " ++ showNat k, kw "# nonzero "]) := by
      rw [upToKnown, ← hC, unlines_append, unlines_append]
      exact ⟨['\n'], by simp [unlines]⟩
    refine (List.prefix_of_prefix_length_le hp h2 ?_).trans h3
    rw [List.length_append] at h1 ⊢
    rw [show (kw "# nonzero =").length = 11 by decide] at h1
    rw [show (kw "# nonzero ").length = 10 by decide]
    omega
  have hnl : ∀ l ∈ C ++ [kw "# known = " ++ showNat k, kw "# nonzero "], '\n' ∉ l := by
    intro l hl
    simp only [List.mem_append, List.mem_cons, List.not_mem_nil, or_false] at hl
    rcases hl with hl | rfl | rfl
    · exact w.newline l (List.mem_append_left _ hl)
    · exact w.newline _ (by simp)
    · decide
  obtain ⟨m, q, hm, rfl, hq⟩ := prefix_unlines hpre
  have hqn : '\n' ∉ q := by
    rcases hq with rfl | ⟨l, hl, hql⟩
    · simp
    · exact newline_prefix hql (hnl l (List.mem_of_getElem? hl))
  have hgl := getlines_cut (ls := (C ++ [kw "# known = " ++ showNat k, kw "# nonzero "]).take m)
    (fun l hl => hnl l (List.mem_of_mem_take hl)) hqn
  -- notes, perhaps a part of the first count, notes
  have hsplit : ∃ (a b : List Str) (l : Str), l <+: kw "# known = " ++ showNat k ∧ (∀ l ∈ a, Note parse J l) ∧
      (∀ l ∈ b, Note parse J l) ∧ (getlines (unlines ((C ++ [kw "# known = " ++ showNat k, kw "# nonzero "]).take m) ++ q) =
        a ++ l :: b ∨ getlines (unlines ((C ++ [kw "# known = " ++ showNat k, kw "# nonzero "]).take m) ++ q) = a) := by
    rw [hgl]
    rcases Nat.lt_or_ge m C.length with hmC | hmC
    · refine ⟨C.take m ++ (if q = [] then [] else [q]), [], [], List.nil_prefix, ?_, by simp, Or.inr ?_⟩
      · intro l hl
        rcases List.mem_append.mp hl with hl | hl
        · exact hCnote l (List.mem_of_mem_take hl)
        · split_ifs at hl with hq0
          · simp at hl
          · rw [List.mem_singleton] at hl
            subst hl
            rcases hq with h | ⟨c, hc, hlc⟩
            · exact absurd h hq0
            · rw [List.getElem?_append_left hmC] at hc
              obtain ⟨c', hc', rfl⟩ := List.mem_map.mp (List.mem_of_getElem? hc)
              exact note_comment (w.comments c' hc').2 hlc
      · rw [List.take_append_of_le_length hmC.le]
    · obtain ⟨j, rfl⟩ := Nat.exists_eq_add_of_le hmC
      rw [List.take_length_add_append]
      have hq' : q = [] ∨ ∃ l, [kw "# known = " ++ showNat k, kw "# nonzero "][j]? = some l ∧ q <+: l := by
        rcases hq with h | ⟨l, hl, hql⟩
        · exact Or.inl h
        · rw [List.getElem?_append_right hmC, Nat.add_sub_cancel_left] at hl
          exact Or.inr ⟨l, hl, hql⟩
      match j, hq' with
      | 0, hq' =>
        rw [List.take_zero, List.append_nil]
        split_ifs with hq0
        · exact ⟨C, [], [], List.nil_prefix, hCnote, by simp, Or.inr (by simp)⟩
        · refine ⟨C, [], q, ?_, hCnote, by simp, Or.inl rfl⟩
          rcases hq' with h | ⟨l, hl, hql⟩
          · exact absurd h hq0
          · cases hl; exact hql
      | 1, hq' =>
        refine ⟨C, (if q = [] then [] else [q]), kw "# known = " ++ showNat k, List.prefix_rfl, hCnote, ?_, Or.inl (by simp)⟩
        intro l hl
        split_ifs at hl with hq0
        · simp at hl
        · rw [List.mem_singleton] at hl
          subst hl
          rcases hq' with h | ⟨c, hc, hlc⟩
          · exact absurd h hq0
          · cases hc; exact note_nonzero hlc
      | j + 2, hq' =>
        have hq0 : q = [] := by
          rcases hq' with h | ⟨l, hl, hql⟩
          · exact h
          · simp at hl
        refine ⟨C, [kw "# nonzero "], kw "# known = " ++ showNat k, List.prefix_rfl, hCnote, ?_, Or.inl (by simp [hq0])⟩
        intro l hl
        rw [List.mem_singleton] at hl
        subst hl
        exact note_nonzero List.prefix_rfl
  obtain ⟨a, b, l, hl, ha, hb', hg⟩ := hsplit
  obtain ⟨cs, ea⟩ := readLines_notes ha (st := Rd.init (J [])) (by simp [Rd.init])
  rcases hg with hg | hg
  · rcases readLine_part_known (parse := parse) (J := J) (st := { Rd.init (J []) with comments := cs }) (by simp [Rd.init])
      (by simp [Rd.init]) (s := ' ' :: showNat k) hl with ⟨known, cs', e⟩ | e
    · left
      obtain ⟨cs'', eb⟩ := readLines_notes hb' (st := { Rd.init (J []) with known := known, comments := cs' }) (by simp [Rd.init])
      refine ⟨cs'', readSeries_ok (st := { Rd.init (J []) with known := known, comments := cs'' }) ?_ rfl⟩
      rw [hg, readLines_append, ea, bok, readLines, e, bok, eb]
    · right
      rw [readSeries, hg, readLines_append, ea, bok, readLines, e]; rfl
  · left
    refine ⟨cs, readSeries_ok (st := { Rd.init (J []) with comments := cs }) ?_ rfl⟩
    rw [hg, ea]

/-- C33.  A file that ends inside the comments, or is empty or missing, is always read as an empty series. -/
theorem C33_comments_only {parse : Str → Res K} {comments : List Str} (hc : ∀ c ∈ comments, '\n' ∉ c ∧ Plain c) {pre : Str}
    (hp : pre <+: unlines (comments.map (kw "# " ++ ·))) (J : Junk K) :
    ∃ cs, readSeries parse J pre = .ok (cs, Ser.new 0 (J [])) := by
  have hnl : ∀ l ∈ comments.map (kw "# " ++ ·), '\n' ∉ l := by
    intro l hl
    obtain ⟨c, h, rfl⟩ := List.mem_map.mp hl
    intro hm
    rcases List.mem_append.mp hm with h' | h'
    · exact absurd h' (by decide)
    · exact (hc c h).1 h'
  obtain ⟨m, q, hm, rfl, hq⟩ := prefix_unlines hp
  have hqn : '\n' ∉ q := by
    rcases hq with rfl | ⟨l, hl, hql⟩
    · simp
    · exact newline_prefix hql (hnl l (List.mem_of_getElem? hl))
  have hgl := getlines_cut (ls := (comments.map (kw "# " ++ ·)).take m) (fun l hl => hnl l (List.mem_of_mem_take hl)) hqn
  obtain ⟨cs, e⟩ := readLines_notes (parse := parse) (J := J) (ls := (comments.map (kw "# " ++ ·)).take m ++
      if q = [] then [] else [q]) (st := Rd.init (J [])) (by
    intro l hl
    rcases List.mem_append.mp hl with hl | hl
    · obtain ⟨c, h, rfl⟩ := List.mem_map.mp (List.mem_of_mem_take hl)
      exact note_comment (hc c h).2 List.prefix_rfl
    · split_ifs at hl with hq0
      · simp at hl
      · rw [List.mem_singleton] at hl
        subst hl
        rcases hq with h | ⟨c, h, hlc⟩
        · exact absurd h hq0
        · obtain ⟨c', h', rfl⟩ := List.mem_map.mp (List.mem_of_getElem? h)
          exact note_comment (hc c' h').2 hlc) (by simp [Rd.init])
  refine ⟨cs, readSeries_ok (st := { Rd.init (J []) with comments := cs }) ?_ rfl⟩
  rw [hgl, e]

/-- C33.  A file that ends inside the last number is read with whatever the parser makes of the part that is there; only the
parser can notice. -/
theorem C33_last_number {fmt : K → Str} {parse : Str → Res K} {comments : List Str} {time : Str} {x : Ser K} {k n : ℕ}
    (w : Writable fmt parse comments time x k (n + 1)) {batch : ℤ} (hb : 1 ≤ batch) {file : Str}
    (h : WriteSeries fmt comments time x batch file) {q r : Str} (hq : q ++ r = fmt (x.data n)) (hq0 : q ≠ [])
    {pre : Str} (hp : pre ++ r ++ ['\n'] = file) (J : Junk K) :
    (∀ a, parse q = .ok a → ∃ y : Ser K, readSeries parse J pre =
        .ok (comments.map trim ++ [kw "known = " ++ showNat k, kw "nonzero = " ++ showNat (n + 1), trim time], y) ∧
      y.known = x.known ∧ y.nonzero = x.nonzero ∧ (∀ i < n, y.data i = x.data i) ∧ y.data n = a) ∧
    ∀ e, parse q = .error e → readSeries parse J pre = .error e := by
  have hf := written_lines hb w.known w.nonzero h
  set L := comments.map (kw "# " ++ ·) ++ (kw "# known = " ++ showNat k) :: (kw "# nonzero = " ++ showNat (n + 1)) ::
      (kw "# " ++ time) :: termLines fmt x.data 0 n with hL
  have hlast : termLines fmt x.data 0 (n + 1) = termLines fmt x.data 0 n ++ [fmt (x.data n)] := by
    rw [termLines, termLines, List.range'_concat]; simp
  have hpre : pre = unlines L ++ q := by
    have : unlines L ++ q ++ (r ++ ['\n']) = pre ++ (r ++ ['\n']) := by
      rw [List.append_assoc, ← List.append_assoc q, hq, ← List.append_assoc pre, hp, hf, hlast,
        ← show unlines [fmt (x.data n)] = fmt (x.data n) ++ ['\n'] by simp [unlines], ← unlines_append, hL]
      simp
    exact (List.append_cancel_right this).symm
  obtain ⟨-, ⟨c, l, hfm, hsp, hch⟩, hfl⟩ := w.codec n (by omega)
  have hqn : '\n' ∉ q := fun hm => hfl (hq ▸ List.mem_append_left _ hm)
  obtain ⟨d, v, rfl⟩ := List.exists_cons_of_ne_nil hq0
  have hdc : d = c := by
    rw [hfm, List.cons_append] at hq
    exact (List.cons.inj hq).1
  subst hdc
  have hnl : ∀ l ∈ L, '\n' ∉ l := by
    intro l hl
    refine w.newline l ?_
    rw [hlast]
    rw [hL] at hl
    simp only [List.mem_append, List.mem_cons] at hl ⊢
    tauto
  have hl : readLines parse J L (Rd.init (J [])) = .ok ⟨k, (n + 1 : ℕ), n,
      comments.map trim ++ [kw "known = " ++ showNat k, kw "nonzero = " ++ showNat (n + 1), trim time],
      ⟨(n + 1 : ℕ), k, (n + 1 : ℕ), fun i => if 0 ≤ i ∧ i < 0 + n then x.data i else J [comments.length + 3] i⟩⟩ := by
    rw [hL, show ∀ (a : List Str) (b c d : Str) (e : List Str), a ++ b :: c :: d :: e = (a ++ [b, c]) ++ d :: e by simp,
      readLines_append, readLines_header comments (fun c hc => (w.comments c hc).2) w.fits w.le, bok, readLines,
      readLine_late w.time.2 rfl rfl w.le, bok,
      readLines_terms (fun i _ hi => w.codec i (by omega)) rfl (by simp)]
    simp
  have hg : readLines parse J (getlines pre) (Rd.init (J [])) = (parse (d :: v)).map fun a => (⟨k, (n + 1 : ℕ), n + 1,
      comments.map trim ++ [kw "known = " ++ showNat k, kw "nonzero = " ++ showNat (n + 1), trim time],
      ⟨(n + 1 : ℕ), k, (n + 1 : ℕ), Function.update (fun i => if 0 ≤ i ∧ i < 0 + n then x.data i else J [comments.length + 3] i)
        n a⟩⟩ : Rd K) := by
    rw [hpre, getlines_cut hnl hqn, if_neg hq0, readLines_append, hl, bok, readLines,
      readLine_number hsp hch (by simp) (by simp)]
    cases parse (d :: v) with
    | error e => rfl
    | ok a => simp [Except.map, bok, readLines]
  constructor
  · intro a ha
    rw [ha] at hg
    refine ⟨_, readSeries_ok hg (by push_cast; rfl), ?_⟩
    · refine ⟨w.known.symm, w.nonzero.symm, fun i hi => ?_, ?_⟩
      · simp only []
        rw [Function.update_of_ne (by omega), if_pos ⟨Nat.zero_le _, by omega⟩]
      · simp only [Function.update_self]
  · intro e he
    rw [he] at hg
    rw [readSeries, hg]
    rfl

/-- A file cut in the middle of the last number `27` reads as a series ending with `2`. -/
example (J : Junk ℕ) : ∃ file pre cs y, WriteSeries showNat [kw "g = log(f)", kw "  mu = 1.5"] (kw "time = now") exSeries 2 file ∧
    pre <+: file ∧ readSeries exParse J pre = .ok (cs, y) ∧ y.nonzero = 3 ∧ y.data 1 = 17 ∧ y.data 2 = 2 := by
  obtain ⟨file, h⟩ := (C32_writes showNat [kw "g = log(f)", kw "  mu = 1.5"] (kw "time = now") exSeries 3 rfl 2).mpr
    (Or.inl (by omega))
  have hf := written_lines (by omega) exWritable.known exWritable.nonzero h
  have h27 : ['2'] ++ ['7'] = showNat (exSeries.data 2) := by
    rw [show exSeries.data 2 = 27 from rfl, showNat, if_neg (by omega), showNat, if_pos (by omega)]
  have hsplit : ∃ pre : Str, pre ++ ['7'] ++ ['\n'] = file := by
    refine ⟨unlines ([kw "g = log(f)", kw "  mu = 1.5"].map (kw "# " ++ ·) ++ (kw "# known = " ++ showNat 5) ::
      (kw "# nonzero = " ++ showNat 3) :: (kw "# " ++ kw "time = now") :: termLines showNat exSeries.data 0 2) ++ ['2'], ?_⟩
    rw [hf, show termLines showNat exSeries.data 0 3 = termLines showNat exSeries.data 0 2 ++ [showNat (exSeries.data 2)] from rfl,
      ← h27]
    simp [unlines]
  obtain ⟨pre, hp⟩ := hsplit
  obtain ⟨y, h1, -, h2, h3, h4⟩ := (C33_last_number exWritable (by omega) h h27 (by simp) hp J).1 2 rfl
  exact ⟨file, pre, _, y, h, ⟨['7'] ++ ['\n'], by rw [← List.append_assoc]; exact hp⟩, h1, h2, h3 1 (by omega), h4⟩

/-- The same file without its last line is refused, and the empty file reads as an empty series. -/
example (J : Junk ℕ) : ∃ file, WriteSeries showNat [kw "g = log(f)", kw "  mu = 1.5"] (kw "time = now") exSeries 2 file ∧
    (∃ e, readSeries exParse J (file.take (file.length - 3)) = .error e) ∧
    ∃ cs, readSeries exParse J [] = .ok (cs, Ser.new 0 (J [])) := by
  obtain ⟨file, h⟩ := (C32_writes showNat [kw "g = log(f)", kw "  mu = 1.5"] (kw "time = now") exSeries 3 rfl 2).mpr
    (Or.inl (by omega))
  have h27 : (showNat (exSeries.data 2)).length = 2 := by
    rw [show exSeries.data 2 = 27 from rfl, showNat, if_neg (by omega), showNat, if_pos (by omega)]; rfl
  have hf := written_lines (by omega) exWritable.known exWritable.nonzero h
  have hlen : (upToKnown [kw "g = log(f)", kw "  mu = 1.5"] 5 ++ kw "# nonzero =").length + 3 ≤ file.length := by
    rw [hf, upToKnown, List.append_cons _ _ ((kw "# nonzero = " ++ showNat 3) :: _),
      unlines_append _ ((kw "# nonzero = " ++ showNat 3) :: _), unlines_cons (kw "# nonzero = " ++ showNat 3),
      unlines_cons (kw "# " ++ kw "time = now")]
    simp only [List.length_append, List.length_cons, show (kw "# nonzero =").length = 11 by decide,
      show (kw "# nonzero = ").length = 12 by decide, show (kw "# ").length = 2 by decide]
    omega
  refine ⟨file, h, ?_, C33_comments_only (comments := []) (by simp) List.nil_prefix J⟩
  refine C33_detected exWritable (by omega) h (List.take_prefix _ _) ?_ ?_ J
  · rw [List.length_take]; omega
  · rw [List.length_take, h27]; omega

end Mandelbrot.Props
