import Verif.IO.TextLemmas
import Verif.Props.Loops

/-!
# Reading what was written
-/

namespace Mandelbrot.IO

variable {K : Type}

/-! ## What is written -/

/-- The lines with the coefficients `a, ..., a + n - 1`. -/
def termLines (fmt : K → Str) (data : ℕ → K) (a n : ℕ) : List Str := (List.range' a n).map fun i => fmt (data i)

/-- Lines as text. -/
def unlines (ls : List Str) : Str := ls.flatMap fun l => l ++ ['\n']

theorem unlines_append (a b : List Str) : unlines (a ++ b) = unlines a ++ unlines b := List.flatMap_append

theorem seq_terms (fmt : K → Str) (data : ℕ → K) (a n : ℕ) :
    Spec.sequentialReduce (· ++ ·) (fun i => fmt (data ((a : ℤ) + i).toNat) ++ ['\n']) n [] =
      unlines (termLines fmt data a n) := by
  induction n with
  | zero => rfl
  | succ n ih =>
    rw [Spec.sequentialReduce, ih, termLines, termLines, List.range'_concat, List.map_append, unlines_append]
    simp [unlines, show ((a : ℤ) + (n : ℤ)).toNat = a + n by omega]

/-- The batches give the coefficients in order, whatever the batch size and the schedules. -/
theorem batches_eq {fmt : K → Str} {data : ℕ → K} {nonzero : ℕ} {batch : ℤ} (hb : 1 ≤ batch) {start : ℤ} {r : Str}
    (h : Batches fmt data nonzero batch start r) (a : ℕ) (ha : start = a) :
    r = unlines (termLines fmt data a (nonzero - a)) := by
  induction h generalizing a with
  | @stop start h =>
    subst ha
    rw [show nonzero - a = 0 by omega]; rfl
  | @next start s r hlt hm hr ih =>
    subst ha
    obtain ⟨threads, st, hT, hst, hdone, rfl⟩ := hm
    obtain ⟨b, hbn⟩ : ∃ b : ℕ, batch = b := ⟨batch.toNat, by omega⟩
    subst hbn
    have hn : min (b : ℤ) (relu ((nonzero : ℤ) - a)) = ((min b (nonzero - a) : ℕ) : ℤ) := by
      rw [relu_of_nonneg (by omega)]; omega
    rw [hn] at hst
    rw [C02_map_reduce _ _ (fun y a b => List.append_assoc y a b) _ threads hT st hst hdone, seq_terms,
      ih (a + b) (by push_cast; rfl), ← unlines_append, termLines, termLines, termLines, ← List.map_append]
    congr 2
    by_cases hc : b ≤ nonzero - a
    · rw [min_eq_left hc, List.range'_append_1]; congr 1; omega
    · rw [min_eq_right (by omega), show nonzero - (a + b) = 0 by omega]; simp

/-- With a batch size that is not positive the loop does not end. -/
theorem batches_none {fmt : K → Str} {data : ℕ → K} {nonzero batch : ℤ} (hb : batch ≤ 0) {start : ℤ} {r : Str}
    (hs : start < nonzero) : ¬Batches fmt data nonzero batch start r := by
  intro h
  induction h with
  | stop h => exact h hs
  | next _ _ _ ih => exact ih (by omega)

/-- Some schedule runs to the end. -/
theorem mapReduced_exists {Y : Type} (reduce : Y → Y → Y) (map : ℤ → Y) (n : ℕ) (y : Y) :
    ∃ r, MapReduced reduce map n y r := by
  by_contra hc
  -- with one thread, an execution can be prolonged until the thread is done
  have ext : ∀ k, ∃ f : ℕ → MRState Y, f 0 = MRState.init ∧
      (∀ j < k, ∃ t < 1, (f j).step reduce map n 1 t = some (.ok (f (j + 1)))) ∧
      MRState.Steps reduce map n 1 MRState.init (.ok (f k)) := by
    intro k
    induction k with
    | zero => exact ⟨fun _ => MRState.init, rfl, by simp, .refl _⟩
    | succ k ih =>
      obtain ⟨f, h0, hj, hs⟩ := ih
      have hnd : ∃ t < 1, (f k).pc t ≠ .done := by
        by_contra hd
        push Not at hd
        exact hc ⟨_, 1, f k, by norm_num, hs, hd, rfl⟩
      obtain ⟨t, ht, s', e⟩ := C02_progress reduce map n 1 (f k) hs hnd
      refine ⟨fun j => if j ≤ k then f j else s', by simp [h0], fun j hjk => ?_, ?_⟩
      · by_cases hjk' : j < k
        · obtain ⟨t, ht, e⟩ := hj j hjk'
          exact ⟨t, ht, by simp only [if_pos (show j ≤ k by omega), if_pos (show j + 1 ≤ k by omega), e]⟩
        · have : j = k := by omega
          subst this
          exact ⟨t, ht, by simp only [le_refl, if_true, if_neg (show ¬j + 1 ≤ j by omega), e]⟩
      · simp only [if_neg (show ¬k + 1 ≤ k by omega)]
        exact .tail hs ht e
  obtain ⟨f, h0, hj, -⟩ := ext (n + 6)
  have := C02_terminates reduce map n 1 f (n + 6) h0 hj
  omega

theorem batches_exists (fmt : K → Str) (data : ℕ → K) (nonzero : ℕ) {batch : ℤ} (hb : 1 ≤ batch) (a : ℕ) :
    ∃ r, Batches fmt data nonzero batch a r := by
  induction h : nonzero - a using Nat.strong_induction_on generalizing a with
  | _ d ih =>
    subst h
    by_cases hlt : (a : ℤ) < nonzero
    · obtain ⟨b, hbn⟩ : ∃ b : ℕ, batch = b := ⟨batch.toNat, by omega⟩
      subst hbn
      have hn : min (b : ℤ) (relu ((nonzero : ℤ) - a)) = ((min b (nonzero - a) : ℕ) : ℤ) := by
        rw [relu_of_nonneg (by omega)]; omega
      obtain ⟨s, hs⟩ := mapReduced_exists (· ++ ·) (fun i => fmt (data ((a : ℤ) + i).toNat) ++ ['\n'])
        (min b (nonzero - a)) []
      rw [← hn] at hs
      obtain ⟨r, hr⟩ := ih (nonzero - (a + b)) (by omega) (a + b) rfl
      exact ⟨s ++ r, .next hlt hs (by push_cast at hr; exact hr)⟩
    · exact ⟨[], .stop hlt⟩

/-! ## Comments -/

/-- A comment that `read_series` does not take for a count. -/
def Plain (c : Str) : Prop :=
  ¬kw "known =" <+: trim c ∧ ¬kw "nonzero =" <+: trim c ∧ ¬kw "terms =" <+: trim c

theorem readCounts_plain {v : Str} (h1 : ¬kw "known =" <+: v) (h2 : ¬kw "nonzero =" <+: v) (h3 : ¬kw "terms =" <+: v)
    (known nonzero : ℤ) : readCounts v known nonzero = .ok (known, nonzero) := by
  rw [readCounts, if_neg (by rwa [List.isPrefixOf_iff_prefix]), if_neg (by rwa [List.isPrefixOf_iff_prefix]),
    if_neg (by rwa [List.isPrefixOf_iff_prefix]), pok]

theorem fresh_counts {n k : ℕ} (h : n ≤ k) (j : ℕ → K) :
    (Ser.new (n : ℤ) j).setCounts k n = .ok ⟨n, k, n, j⟩ := by
  have h1 : min (n : ℤ) k = n := by omega
  rw [Ser.setCounts, Ser.new, relu_of_nonneg (by omega)]
  simp only [h1]
  rw [slowAssert_true le_rfl, bok, pok]

theorem trim_hash (s : Str) : trim ('#' :: s) = '#' :: s := trim_nonspace (by decide) s

/-- A comment before the counts are known. -/
theorem readLine_early {parse : Str → Res K} {J : Junk K} {st : Rd K} {c : Str} (hc : Plain c)
    (hst : st.known < 0 ∨ st.nonzero < 0) :
    readLine parse J st (kw "# " ++ c) = .ok { st with comments := st.comments ++ [trim c] } := by
  rw [show kw "# " ++ c = '#' :: ' ' :: c from rfl, readLine, trim_hash]
  simp only [if_true, trim_space]
  rw [readCounts_plain hc.1 hc.2.1 hc.2.2, bok]
  simp only []
  rw [if_neg (by omega)]
  rfl

/-- A comment after the counts: the series is allocated again and reading starts over. -/
theorem readLine_late {parse : Str → Res K} {J : Junk K} {st : Rd K} {c : Str} (hc : Plain c) {k n : ℕ}
    (hk : st.known = k) (hn : st.nonzero = n) (hkn : n ≤ k) :
    readLine parse J st (kw "# " ++ c) =
      .ok ⟨k, n, 0, st.comments ++ [trim c], ⟨n, k, n, J [st.comments.length + 1]⟩⟩ := by
  rw [show kw "# " ++ c = '#' :: ' ' :: c from rfl, readLine, trim_hash]
  simp only [if_true, trim_space]
  rw [readCounts_plain hc.1 hc.2.1 hc.2.2, bok]
  simp only [hk, hn]
  rw [if_pos (by omega), slowAssert_true (by exact_mod_cast hkn), bok, fresh_counts hkn, bok, pok, List.length_append]
  rfl

/-- The comments of the caller. -/
theorem readLines_comments {parse : Str → Res K} {J : Junk K} (cs : List Str) (hcs : ∀ c ∈ cs, Plain c) {st : Rd K}
    (hst : st.known < 0 ∨ st.nonzero < 0) :
    readLines parse J (cs.map (kw "# " ++ ·)) st = .ok { st with comments := st.comments ++ cs.map trim } := by
  induction cs generalizing st with
  | nil => simp [readLines]
  | cons c cs ih =>
    rw [List.map_cons, readLines, readLine_early (hcs c (by simp)) hst, bok,
      ih (fun c hc => hcs c (by simp [hc])) (st := { st with comments := st.comments ++ [trim c] }) hst]
    simp

theorem trim_known (s : Str) : trim (kw "known =" ++ s) = kw "known =" ++ s := trim_nonspace (by decide) _

theorem trim_nonzero (s : Str) : trim (kw "nonzero =" ++ s) = kw "nonzero =" ++ s := trim_nonspace (by decide) _

/-- The line with `known`. -/
theorem readLine_known {parse : Str → Res K} {J : Junk K} {st : Rd K} (hk : st.known < 0) (hn : st.nonzero < 0) (s : Str) :
    readLine parse J st (kw "# known =" ++ s) =
      (number s).map fun k => { st with known := k, comments := st.comments ++ [kw "known =" ++ s] } := by
  rw [show kw "# known =" ++ s = '#' :: ' ' :: (kw "known =" ++ s) from rfl, readLine, trim_hash]
  simp only [if_true, trim_space, trim_known]
  rw [readCounts, if_pos (by rw [List.isPrefixOf_iff_prefix]; exact ⟨s, rfl⟩), slowAssert_true hk, bok,
    List.drop_left' (by decide)]
  cases e : number s with
  | error e => rfl
  | ok k =>
    simp only [bok, pok]
    rw [if_neg (by omega)]
    rfl

/-- The line with `nonzero`, after `known`. -/
theorem readLine_nonzero {parse : Str → Res K} {J : Junk K} {st : Rd K} {k : ℕ} (hk : st.known = k) (hn : st.nonzero < 0)
    {n : ℕ} {s : Str} (hs : number s = .ok (n : ℤ)) :
    readLine parse J st (kw "# nonzero =" ++ s) = if n ≤ k then
      .ok ⟨k, n, 0, st.comments ++ [kw "nonzero =" ++ s], ⟨n, k, n, J [st.comments.length + 1]⟩⟩ else .error .assertion := by
  rw [show kw "# nonzero =" ++ s = '#' :: ' ' :: (kw "nonzero =" ++ s) from rfl, readLine, trim_hash]
  simp only [if_true, trim_space, trim_nonzero]
  have h1 : ¬(kw "known =").isPrefixOf (kw "nonzero =" ++ s) = true := by
    intro h
    rw [List.isPrefixOf_iff_prefix] at h
    obtain ⟨t, ht⟩ := h
    exact absurd (List.cons.inj ht).1 (by decide)
  rw [readCounts, if_neg h1, if_pos (by rw [List.isPrefixOf_iff_prefix]; exact ⟨s, rfl⟩), slowAssert_true hn, bok,
    List.drop_left' (by decide), hs]
  simp only [bok, pok, hk]
  rw [if_pos (by omega)]
  by_cases hkn : n ≤ k
  · rw [slowAssert_true (by exact_mod_cast hkn), bok, if_pos hkn, fresh_counts hkn, bok, List.length_append]
    rfl
  · rw [slowAssert_false (by simpa using hkn), berr, if_neg hkn]

theorem readLine_nonzero_error {parse : Str → Res K} {J : Junk K} {st : Rd K} (hn : st.nonzero < 0) {s : Str}
    (hs : number s = .error .exception) : readLine parse J st (kw "# nonzero =" ++ s) = .error .exception := by
  rw [show kw "# nonzero =" ++ s = '#' :: ' ' :: (kw "nonzero =" ++ s) from rfl, readLine, trim_hash]
  simp only [if_true, trim_space, trim_nonzero]
  have h1 : ¬(kw "known =").isPrefixOf (kw "nonzero =" ++ s) = true := by
    intro h
    rw [List.isPrefixOf_iff_prefix] at h
    obtain ⟨t, ht⟩ := h
    exact absurd (List.cons.inj ht).1 (by decide)
  rw [readCounts, if_neg h1, if_pos (by rw [List.isPrefixOf_iff_prefix]; exact ⟨s, rfl⟩), slowAssert_true hn, bok,
    List.drop_left' (by decide), hs, berr, berr]

/-! ## Coefficients -/

/-- What is asked of the formatter and the parser for one number. -/
structure Codec (fmt : K → Str) (parse : Str → Res K) (a : K) : Prop where
  back : parse (fmt a) = .ok a
  head : ∃ c l, fmt a = c :: l ∧ isSpace c = false ∧ c ≠ '#'
  line : '\n' ∉ fmt a

/-- A line that is neither blank nor a comment. -/
theorem readLine_number {parse : Str → Res K} {J : Junk K} {st : Rd K} {c : Char} {l : Str} (hs : isSpace c = false)
    (hc : c ≠ '#') (ht : 0 ≤ st.terms) (hn : st.terms < st.nonzero) :
    readLine parse J st (c :: l) = (parse (c :: l)).map fun a => { st with
      terms := st.terms + 1
      x := { st.x with data := Function.update st.x.data st.terms.toNat a } } := by
  rw [readLine, trim_nonspace hs]
  simp only [if_neg hc]
  rw [slowAssert_true ⟨ht, hn⟩, bok]
  cases parse (c :: l) with
  | error e => rfl
  | ok a => rfl

/-- Reading coefficients `a, ..., a + m - 1`. -/
theorem readLines_terms {fmt : K → Str} {parse : Str → Res K} {J : Junk K} {data : ℕ → K} {m : ℕ} {a : ℕ}
    (hc : ∀ i, a ≤ i → i < a + m → Codec fmt parse (data i)) {st : Rd K} (ht : st.terms = a) (hn : (a : ℤ) + m ≤ st.nonzero) :
    readLines parse J (termLines fmt data a m) st = .ok { st with
      terms := st.terms + m
      x := { st.x with data := fun i => if a ≤ i ∧ i < a + m then data i else st.x.data i } } := by
  induction m generalizing a st with
  | zero =>
    have : (fun i => if a ≤ i ∧ i < a + 0 then data i else st.x.data i) = st.x.data := by
      funext i; rw [if_neg (by omega)]
    rw [this]; simp [termLines, readLines]
  | succ m ih =>
    obtain ⟨hb, ⟨c, l, e, hs, hc'⟩, -⟩ := hc a le_rfl (by omega)
    rw [termLines, List.range'_succ, List.map_cons, readLines]
    have h1 : readLine parse J st (fmt (data a)) = .ok { st with
        terms := st.terms + 1
        x := { st.x with data := Function.update st.x.data a (data a) } } := by
      rw [e, readLine_number hs hc' (by omega) (by omega), ← e, hb]
      simp only [Except.map, ht, Int.toNat_natCast]
    rw [h1, bok]
    have h2 := ih (a := a + 1) (fun i h1 h2 => hc i (by omega) (by omega)) (st := { st with
        terms := st.terms + 1
        x := { st.x with data := Function.update st.x.data a (data a) } }) (by simp [ht]) (by push_cast at hn ⊢; omega)
    rw [termLines] at h2
    rw [h2]
    have hd : (fun i => if a + 1 ≤ i ∧ i < a + 1 + m then data i else Function.update st.x.data a (data a) i) =
        fun i => if a ≤ i ∧ i < a + (m + 1) then data i else st.x.data i := by
      funext i
      by_cases h3 : i = a
      · subst h3; rw [if_neg (by omega), Function.update_self, if_pos (by omega)]
      · rw [Function.update_of_ne h3]
        by_cases h4 : a + 1 ≤ i ∧ i < a + 1 + m
        · rw [if_pos h4, if_pos (by omega)]
        · rw [if_neg h4, if_neg (by omega)]
    simp only [hd]
    rw [show st.terms + 1 + (m : ℤ) = st.terms + ((m + 1 : ℕ) : ℤ) by push_cast; ring]

/-! ## The whole file -/

/-- All lines of a written file. -/
theorem written_lines {fmt : K → Str} {comments : List Str} {time : Str} {x : Ser K} {batch : ℤ} (hb : 1 ≤ batch) {k n : ℕ}
    (hk : x.known = k) (hn : x.nonzero = n) {file : Str} (h : WriteSeries fmt comments time x batch file) :
    file = unlines (comments.map (kw "# " ++ ·) ++ (kw "# known = " ++ showNat k) :: (kw "# nonzero = " ++ showNat n) ::
      (kw "# " ++ time) :: termLines fmt x.data 0 n) := by
  obtain ⟨r, hr, rfl⟩ := h
  rw [hn] at hr
  rw [batches_eq hb hr 0 (by simp), hk, hn, headerText, showInt_nat, showInt_nat, unlines_append, List.flatMap_append]
  have h1 : ∀ cs : List Str, cs.flatMap commentLine = unlines (cs.map (kw "# " ++ ·)) := by
    intro cs
    rw [unlines, List.flatMap_map]; rfl
  rw [h1, List.append_assoc]
  congr 1
  simp [unlines, commentLine, kw]

/-- After the header. -/
theorem readLines_header {parse : Str → Res K} {J : Junk K} (cs : List Str) (hcs : ∀ c ∈ cs, Plain c) {k n : ℕ}
    (hk : k < 2 ^ 63) (hnk : n ≤ k) :
    readLines parse J (cs.map (kw "# " ++ ·) ++ [kw "# known = " ++ showNat k, kw "# nonzero = " ++ showNat n]) (Rd.init (J [])) =
      .ok ⟨k, n, 0, cs.map trim ++ [kw "known = " ++ showNat k, kw "nonzero = " ++ showNat n],
        ⟨n, k, n, J [cs.length + 2]⟩⟩ := by
  rw [readLines_append, readLines_comments cs hcs (Or.inl (by simp [Rd.init])), bok, readLines]
  have h1 : ∀ m, m < 2 ^ 63 → number (' ' :: showNat m) = .ok (m : ℤ) := fun m hm => by
    rw [number_space, number_showNat hm]
  rw [show kw "# known = " ++ showNat k = kw "# known =" ++ (' ' :: showNat k) from rfl,
    readLine_known (by simp [Rd.init]) (by simp [Rd.init]), h1 k hk]
  simp only [Except.map, bok, readLines]
  rw [show kw "# nonzero = " ++ showNat n = kw "# nonzero =" ++ (' ' :: showNat n) from rfl,
    readLine_nonzero (k := k) rfl (by simp [Rd.init]) (h1 n (by omega)), if_pos hnk, bok]
  simp [Rd.init, kw]

end Mandelbrot.IO
