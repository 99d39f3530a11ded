import Verif.IO.Tools
import Verif.Props.IO
import Verif.Props.Npy
import Verif.Props.SeriesNewton
import Verif.Series.CodeletLemmas

/-!
# The conversion programs (C59)
-/

set_option linter.unusedSectionVars false

namespace Mandelbrot.Props

open _root_.Mandelbrot.IO

section Convert

variable {K : Type} {fmt : K → Str} {parse : Str → Res K} {encode : K → Str} {canOpen : Str → Bool} {fs : Files}
  {input output : Str}

theorem store_ok (hc : canOpen output = true) (file : Str) :
    fs.store canOpen output file = .ok (Function.update fs output (some file)) := by
  rw [Files.store, slowAssert_true hc, bok]; rfl

/-- C59.  `series-to-npy` on a file that `write_series` wrote: a reader of the new file finds a table with one row of two numbers for each
stored term of the series, in order.  All other files are as before. -/
theorem C59_convert (henc : ∀ a, (encode a).length = 16) {comments : List Str} {time : Str} {x : Ser K} {k n : ℕ}
    (w : Writable fmt parse comments time x k n) {batch : ℤ} (hb : 1 ≤ batch) {file : Str}
    (h : WriteSeries fmt comments time x batch file) (J : Junk K) (hfit : n < 2 ^ 31) (hin : fs input = some file)
    (hout : fs output = none) (hext : kw ".npy" <:+ output) (hc : canOpen output = true) :
    ∃ fs' new data, toolMain (convert parse J encode canOpen fs) [input, output] = .ok fs' ∧ fs' output = some new ∧
      (∀ p, p ≠ output → fs' p = fs p) ∧ Spec.readNpy new = some ([n, 2], data) ∧ data.length = 16 * n ∧
      ∀ i < n, (data.drop (16 * i)).take 16 = encode (x.data i) := by
  obtain ⟨y, e, _, hz, _, hd⟩ := C32_roundtrip w hb h J
  obtain ⟨new, data, e1, e2, e3, e4, -⟩ := (C35_file (encode := encode) (parts := 2) (by simpa using henc) output (x := y) (n := n)
    (by rw [hz, w.nonzero]) hfit).2 hext
  refine ⟨Function.update fs output (some new), new, data, ?_, Function.update_self .., fun p hp => Function.update_of_ne hp .., e2,
    by rw [e3], fun i hi => ?_⟩
  · rw [toolMain, convert, slowAssert_true hext, bok, slowAssert_true hout, bok, hin, Option.getD_some, e, bok]
    simp only [e1]
    rw [bok, store_ok hc]
  · rw [← hd i hi]; exact e4 i hi

/-- C59.  A file that exists is never overwritten, a name that does not end in `.npy` is refused, and nothing but the output changes. -/
theorem C59_convert_safe (J : Junk K) (args : List Str) :
    (∀ input output, args = [input, output] → (fs output ≠ none ∨ ¬kw ".npy" <:+ output) →
      toolMain (convert parse J encode canOpen fs) args = .error .assertion) ∧
    (args.length ≠ 2 → toolMain (convert parse J encode canOpen fs) args = .error .assertion) ∧
    ∀ fs', toolMain (convert parse J encode canOpen fs) args = .ok fs' → ∃ input output new, args = [input, output] ∧
      kw ".npy" <:+ output ∧ fs output = none ∧ canOpen output = true ∧ fs' = Function.update fs output (some new) := by
  refine ⟨?_, ?_, ?_⟩
  · rintro input output rfl h
    rw [toolMain, convert]
    by_cases hx : kw ".npy" <:+ output
    · rw [slowAssert_true hx, bok, slowAssert_false (by tauto), berr]
    · rw [slowAssert_false hx, berr]
  · intro h
    match args with
    | [] | [_] | _ :: _ :: _ :: _ => rfl
    | [_, _] => simp at h
  · intro fs' h
    match args with
    | [] | [_] | _ :: _ :: _ :: _ => cases h
    | [input, output] =>
      rw [toolMain, convert] at h
      by_cases hx : kw ".npy" <:+ output
      · rw [slowAssert_true hx, bok] at h
        by_cases ho : fs output = none
        · rw [slowAssert_true ho, bok] at h
          cases e : readSeries parse J ((fs input).getD []) with
          | error => rw [e, berr] at h; cases h
          | ok r =>
            rw [e, bok] at h
            simp only [writeNpy, slowAssert_true hx, bok, pok, Files.store] at h
            by_cases hc : canOpen output = true
            · rw [slowAssert_true hc, bok] at h
              cases h
              exact ⟨input, output, _, rfl, hx, ho, hc, rfl⟩
            · rw [slowAssert_false hc, berr] at h; cases h
        · rw [slowAssert_false ho, berr] at h; cases h
      · rw [slowAssert_false hx, berr] at h; cases h

/-- C59.  An input that does not exist is not noticed: the program succeeds and writes a table without rows. -/
theorem C59_missing_witness (J : Junk K) (henc : ∀ a, (encode a).length = 16) (hin : fs input = none) (hout : fs output = none)
    (hext : kw ".npy" <:+ output) (hc : canOpen output = true) :
    ∃ fs' new, toolMain (convert parse J encode canOpen fs) [input, output] = .ok fs' ∧ fs' output = some new ∧
      Spec.readNpy new = some ([0, 2], []) := by
  obtain ⟨new, data, e1, e2, e3, -⟩ := (C35_file (encode := encode) (parts := 2) (by simpa using henc) output
    (x := Ser.new 0 (J [])) (n := 0) rfl (by norm_num)).2 hext
  refine ⟨Function.update fs output (some new), new, ?_, Function.update_self .., ?_⟩
  · rw [toolMain, convert, slowAssert_true hext, bok, slowAssert_true hout, bok, hin]
    show (readSeries parse J [] >>= _) = _
    rw [show readSeries parse J [] = .ok ([], Ser.new 0 (J [])) from rfl, bok]
    simp only [e1]
    rw [bok, store_ok hc]
  · rw [e2]
    have : data = [] := List.length_eq_zero_iff.mp (by rw [e3])
    rw [this]; rfl

end Convert

section Exp

variable {K : Type} [Field K] [CharZero K] [DecidableEq K] [Ldexp K] [Ser.LawfulLdexp K] {fmt : K → Str} {parse : Str → Res K} {encode : K → Str}
  {canOpen : Str → Bool} {fs : Files} {input output : Str} {ker : Ker K}

/-- C59.  `series-exp` on a file that `write_series` wrote for a series without trailing zeros and with constant term 0: a reader of the
new file finds the terms of the exponential.  All other files are as before. -/
theorem C59_exp {N : ℕ} (hker : ker.Exact N) (henc : ∀ a, (encode a).length = 16) {comments : List Str} {time : Str} {x : Ser K} {n : ℕ}
    (w : Writable fmt parse comments time x n n) {batch : ℤ} (hb : 1 ≤ batch) {file : Str}
    (h : WriteSeries fmt comments time x batch file) (h0 : x.at 0 = 0) (J : Junk K) (hfit : n < 2 ^ 31) (hN : n ≤ N)
    (hin : fs input = some file) (hout : fs output = none) (hext : kw ".npy" <:+ output) (hc : canOpen output = true) :
    ∃ fs' new data, ∃ e : ℕ → K, Spec.IsExp n x.at e ∧
      toolMain (expTool ker parse J encode canOpen fs) [input, output] = .ok fs' ∧ fs' output = some new ∧
      (∀ p, p ≠ output → fs' p = fs p) ∧ Spec.readNpy new = some ([n, 2], data) ∧ data.length = 16 * n ∧
      ∀ i < n, (data.drop (16 * i)).take 16 = encode (e i) := by
  obtain ⟨g, e, hk, hz, hl, hd⟩ := C32_roundtrip w hb h (J.sub 0)
  have hat : g.at = fun i => if i < n then x.at i else 0 := by
    funext i
    simp only [Ser.at, hz, w.nonzero, Nat.cast_lt]
    split_ifs with hi
    · exact hd i hi
    · rfl
  have hwf : g.WF := ⟨by rw [hz, w.nonzero]; omega, by rw [hk, hz, w.known, w.nonzero], by rw [hl, hz]⟩
  have hF : PowerSeries.constantCoeff g.ps = 0 := by
    rw [cc_ps, hat]
    show (if 0 < n then x.at 0 else 0) = 0
    rw [h0]; split_ifs <;> rfl
  obtain ⟨y, ey, ly, hy, hnz⟩ := Ser.exp_has' hker (J.sub 2) (y := Ser.new g.nonzero (J [1])) (Ser.Is.self hwf n (by rw [hk, w.known]))
    (fun _ => hF) (by simp [Ser.new, relu, hz, w.nonzero]) hN
  have hyn := hnz (by rw [hz, w.nonzero])
  obtain ⟨new, data, e1, e2, e3, e4, -⟩ := (C35_file (encode := encode) (parts := 2) (by simpa using henc) output (x := y) (n := n)
    hyn hfit).2 hext
  have hexp := isExp_of_agree hF hy.agree
  rw [Ser.seqOf_ps, Ser.seqOf_ps, hat] at hexp
  refine ⟨Function.update fs output (some new), new, data, y.at, ⟨hexp.1, fun j hj => ?_⟩, ?_, Function.update_self ..,
    fun p hp => Function.update_of_ne hp .., e2, by rw [e3], fun i hi => ?_⟩
  · rw [hexp.2 j hj]
    refine Finset.sum_congr rfl fun p hp => ?_
    rw [Finset.HasAntidiagonal.mem_antidiagonal] at hp
    simp only [Spec.deriv]
    rw [if_pos (by omega)]
  · rw [toolMain, expTool, slowAssert_true hout, bok, hin, Option.getD_some, e, bok]
    simp only [ey]
    rw [bok]
    simp only [e1]
    rw [bok, store_ok hc]
  · rw [Ser.at, if_pos (by rw [hyn]; exact_mod_cast hi)]; exact e4 i hi

/-- C59.  `series-exp` never overwrites a file and changes nothing but its output, which ends in `.npy`. -/
theorem C59_exp_safe (J : Junk K) (args : List Str) :
    (∀ input output, args = [input, output] → fs output ≠ none →
      toolMain (expTool ker parse J encode canOpen fs) args = .error .assertion) ∧
    (args.length ≠ 2 → toolMain (expTool ker parse J encode canOpen fs) args = .error .assertion) ∧
    ∀ fs', toolMain (expTool ker parse J encode canOpen fs) args = .ok fs' → ∃ input output new, args = [input, output] ∧
      kw ".npy" <:+ output ∧ fs output = none ∧ canOpen output = true ∧ fs' = Function.update fs output (some new) := by
  refine ⟨?_, ?_, ?_⟩
  · rintro input output rfl h
    rw [toolMain, expTool, slowAssert_false h, berr]
  · intro h
    match args with
    | [] | [_] | _ :: _ :: _ :: _ => rfl
    | [_, _] => simp at h
  · intro fs' h
    match args with
    | [] | [_] | _ :: _ :: _ :: _ => cases h
    | [input, output] =>
      rw [toolMain, expTool] at h
      by_cases ho : fs output = none
      · rw [slowAssert_true ho, bok] at h
        cases e : readSeries parse (J.sub 0) ((fs input).getD []) with
        | error => rw [e, berr] at h; cases h
        | ok r =>
          rw [e, bok] at h
          simp only at h
          cases e' : Ser.exp ker (J.sub 2) (Ser.new r.2.nonzero (J [1])) r.2 with
          | error => rw [e', berr] at h; cases h
          | ok y =>
            rw [e', bok] at h
            simp only [writeNpy] at h
            by_cases hx : kw ".npy" <:+ output
            · simp only [slowAssert_true hx, bok, pok, Files.store] at h
              by_cases hc : canOpen output = true
              · rw [slowAssert_true hc, bok] at h
                cases h
                exact ⟨input, output, _, rfl, hx, ho, hc, rfl⟩
              · rw [slowAssert_false hc, berr] at h; cases h
            · rw [slowAssert_false hx, berr, berr] at h; cases h
      · rw [slowAssert_false ho, berr] at h; cases h

/-- C59.  The result has room for as many terms as the input has stored, not for as many as it has known.  A series with fewer than five
stored terms and trailing zeros is refused, although it has an exponential. -/
theorem C59_exp_trailing_witness (B : Junk K) (mul addmul : ℕ → Span K → Span K → Res (ℕ → K)) (sqr : ℕ → Span K → Res (ℕ → K))
    {comments : List Str} {time : Str} {x : Ser K} {k n : ℕ} (w : Writable fmt parse comments time x k n) (hn : n < min 5 k) {batch : ℤ}
    (hb : 1 ≤ batch) {file : Str} (h : WriteSeries fmt comments time x batch file) (J : Junk K) (hin : fs input = some file) :
    toolMain (expTool (hostKer B mul addmul sqr) parse J encode canOpen fs) [input, output] = .error .assertion := by
  obtain ⟨g, e, hk, hz, hl, hd⟩ := C32_roundtrip w hb h (J.sub 0)
  have hz' : g.nonzero = n := by rw [hz, w.nonzero]
  have hk' : g.known = k := by rw [hk, w.known]
  rw [toolMain, expTool]
  by_cases hout : fs output = none
  · rw [slowAssert_true hout, bok, hin, Option.getD_some, e, bok]
    simp only
    have : Ser.exp (hostKer B mul addmul sqr) (J.sub 2) (Ser.new g.nonzero (J [1])) g = .error .assertion := by
      rw [Ser.exp]
      simp only [hk', if_neg (show ¬(k : ℤ) = 0 by omega)]
      have hbase : (hostKer B mul addmul sqr).expBase (Ser.new g.nonzero (J [1])) g = .error .assertion := by
        simp only [hostKer, expBase, serialBase, Ser.setCounts, hk']
        rw [slowAssert_false, berr, berr]
        simp only [Ser.new, relu, hz', toU64]
        omega
      rw [if_pos (show (hostKer B mul addmul sqr).check = true from rfl)]
      by_cases h0 : g.nonzero = 0 ∨ g.data 0 = 0
      · rw [slowAssert_true h0, bok, hbase, berr]
      · rw [slowAssert_false h0, berr]
    rw [this, berr]
  · rw [slowAssert_false hout, berr]

end Exp

/-! ## Examples -/

/-- C59 example: three naturals are converted, with an encoding of 16 bytes. -/
example (J : Junk ℕ) : ∃ file, ∃ fs' : Files, ∃ new data, toolMain (convert exParse J (fun _ => List.replicate 16 'x') (fun _ => true)
      fun p => if p = kw "in" then some file else none) [kw "in", kw "out.npy"] = .ok fs' ∧ fs' (kw "out.npy") = some new ∧
    fs' (kw "in") = some file ∧ Spec.readNpy new = some ([3, 2], data) := by
  obtain ⟨file, h⟩ := (C32_writes showNat [kw "g = log(f)", kw "  mu = 1.5"] (kw "time = now") exSeries 3 rfl 2).mpr
    (Or.inl (by omega))
  obtain ⟨fs', new, data, h1, h2, h3, h4, -⟩ := C59_convert (encode := fun _ => List.replicate 16 'x') (canOpen := fun _ => true)
    (fs := fun p => if p = kw "in" then some file else none) (input := kw "in") (output := kw "out.npy") (by simp) exWritable
    (by omega) h J (by norm_num) (if_pos rfl) (if_neg (by decide)) ⟨kw "out", rfl⟩ rfl
  exact ⟨file, fs', new, data, h1, h2, (h3 _ (by decide)).trans (if_pos rfl), h4⟩

/-- Rationals that are naturals, as text. -/
def exParseQ (s : Str) : Res ℚ := (number s).map fun i => (i : ℚ)

theorem exCodecQ {a : ℕ} (h : a < 2 ^ 63) : Codec (fun q : ℚ => showNat q.num.toNat) exParseQ a := by
  have c := exCodec h
  refine ⟨?_, ?_, ?_⟩
  · simp only [Rat.num_natCast, Int.toNat_natCast]
    rw [exParseQ, number_showNat h]; rfl
  · simpa using c.head
  · simpa using c.line

theorem exWritableQ (k n : ℕ) (hn : n ≤ k) (hk : k < 100) : Writable (fun q : ℚ => showNat q.num.toNat) exParseQ [kw "g = log(f)"]
    (kw "time = now") ⟨n, k, n, fun i => (i : ℚ)⟩ k n where
  known := rfl
  nonzero := rfl
  le := hn
  fits := by omega
  comments := by unfold Plain; decide
  time := by unfold Plain; decide
  codec i hi := exCodecQ (by omega)

/-- C59 example: the exponential of `z + 2 z^2 + ... + 6 z^6`. -/
example (B J : Junk ℚ) : ∃ file, ∃ fs' : Files, ∃ new data, toolMain (expTool
      (hostKer B naiveMul naiveMul fun n x => naiveMul n x x) exParseQ J
      (fun _ => List.replicate 16 'x') (fun _ => true) fun p => if p = kw "in" then some file else none) [kw "in", kw "out.npy"] = .ok fs' ∧
    fs' (kw "out.npy") = some new ∧ Spec.readNpy new = some ([7, 2], data) := by
  obtain ⟨file, h⟩ := (C32_writes (fun q : ℚ => showNat q.num.toNat) [kw "g = log(f)"] (kw "time = now") ⟨7, 7, 7, fun i => (i : ℚ)⟩ 7 rfl
    2).mpr (Or.inl (by omega))
  obtain ⟨fs', new, data, e, -, h1, h2, -, h4, -⟩ := C59_exp (N := 7) (hostKer_exact B ⟨codeletKer_exact.mul, codeletKer_exact.addmul, codeletKer_exact.sqr⟩) (encode := fun _ => List.replicate 16 'x')
    (canOpen := fun _ => true) (fs := fun p => if p = kw "in" then some file else none) (input := kw "in") (output := kw "out.npy")
    (by simp) (exWritableQ 7 7 le_rfl (by norm_num)) (by omega) h (by norm_num [Ser.at]) J (by norm_num) le_rfl (if_pos rfl)
    (if_neg (by decide)) ⟨kw "out", rfl⟩ rfl
  exact ⟨file, fs', new, data, h1, h2, h4⟩

/-- C59 example: `z + O(z^3)` with two stored terms is refused. -/
example (B J : Junk ℚ) : ∃ file, toolMain (expTool (hostKer B naiveMul naiveMul fun n x => naiveMul n x x)
      exParseQ J (fun _ => List.replicate 16 'x') (fun _ => true) fun p => if p = kw "in" then some file else none)
      [kw "in", kw "out.npy"] = .error .assertion := by
  obtain ⟨file, h⟩ := (C32_writes (fun q : ℚ => showNat q.num.toNat) [kw "g = log(f)"] (kw "time = now") ⟨2, 3, 2, fun i => (i : ℚ)⟩ 2 rfl
    2).mpr (Or.inl (by omega))
  exact ⟨file, C59_exp_trailing_witness B _ _ _ (exWritableQ 3 2 (by norm_num) (by norm_num)) (by norm_num) (by omega) h J (if_pos rfl)⟩

end Mandelbrot.Props
