import Verif.Area.Resume
import Verif.Props.IO
import Verif.Props.Area

/-!
# Stopping and resuming a run (C34)
-/

set_option linter.unusedSectionVars false

namespace Mandelbrot

open _root_.Mandelbrot.IO

/-- The same file is written, whatever the number format, time and batch size. -/
def Spec.SameFile {K : Type} (a b : Area.FileReq K) : Prop :=
  a.letter = b.letter ∧ a.k = b.k ∧ ∀ (fmt : K → Str) (time : Str) (batch : ℤ) (file : Str), 1 ≤ batch →
    (WriteSeries fmt a.comments time a.series batch file ↔ WriteSeries fmt b.comments time b.series batch file)

/-- Equal known counts, nonzero counts and coefficients. -/
def Spec.SameSeries {K : Type} (x y : Ser K) : Prop :=
  x.known = y.known ∧ x.nonzero = y.nonzero ∧ ∀ i : ℕ, (i : ℤ) < x.nonzero → x.data i = y.data i

namespace Props

section

variable {K : Type} [Zero K] [One K] [Add K] [Sub K] [Neg K] [Mul K] [Div K] [IntCast K] [Ldexp K]
  [DecidableEq K]

theorem plain_of {c : Char} {s : Str} (hs : isSpace c = false) (h : c ∉ ['n', 't', 'k'] ∨ c = 'k' ∧ ∃ t, s = ' ' :: t) :
    Plain (c :: s) := by
  unfold Plain
  rw [trim_nonspace hs]
  have e1 : kw "known =" = 'k' :: 'n' :: kw "own =" := rfl
  have e2 : kw "nonzero =" = 'n' :: kw "onzero =" := rfl
  have e3 : kw "terms =" = 't' :: kw "erms =" := rfl
  rw [e1, e2, e3]
  simp only [List.cons_prefix_cons]
  rcases h with h | ⟨rfl, t, rfl⟩
  · simp only [List.mem_cons, not_or] at h
    exact ⟨fun e => h.2.2.1 e.1.symm, fun e => h.1 e.1.symm, fun e => h.2.1 e.1.symm⟩
  · refine ⟨fun e => ?_, fun e => ?_, fun e => ?_⟩
    · rw [List.cons_prefix_cons] at e; exact absurd e.2.1 (by decide)
    · exact absurd e.1 (by decide)
    · exact absurd e.1 (by decide)

theorem comments_plain {env : Area.Env K} (hmode : '\n' ∉ env.mode) {f : Ser K} (hmu : '\n' ∉ env.muText f) (k : ℕ) :
    ∀ c ∈ env.comments (kw "g = log(f)") k f, '\n' ∉ c ∧ Plain c := by
  intro c hc
  simp only [Area.Env.comments, List.mem_cons, List.not_mem_nil, or_false] at hc
  rcases hc with rfl | rfl | rfl | rfl
  · exact ⟨by decide, plain_of (by decide) (Or.inl (by decide))⟩
  · refine ⟨?_, plain_of (c := 'm') (by decide) (Or.inl (by decide))⟩
    rw [List.mem_append, not_or]; exact ⟨by decide, hmode⟩
  · refine ⟨?_, plain_of (c := 'k') (by decide) (Or.inr ⟨rfl, kw "= " ++ showNat k, rfl⟩)⟩
    rw [List.mem_append, not_or]; exact ⟨by decide, newline_showNat k⟩
  · refine ⟨?_, plain_of (c := 'm') (by decide) (Or.inl (by decide))⟩
    rw [List.mem_append, not_or]; exact ⟨by decide, hmu⟩

theorem Same.spec {a b : Area.FileReq K} (h : a.Same b) : Spec.SameFile a b :=
  ⟨h.letter, h.k, fun _ _ _ _ hb => ⟨Area.Same.written h hb, Area.Same.written ⟨h.letter.symm, h.k.symm, h.comments.symm,
    Area.Sim.symm h.series⟩ hb⟩⟩

/-- The start of a run without an input file. -/
theorem areasMain_none {ker : Ker K} {J : Junk K} {env : Area.Env K} {output : Bool} (n : ℕ) :
    ∃ g, Area.bottcherBase (J.sub 0) = .ok g ∧ g.known = 2 ^ 0 ∧
      Area.areasMain ker J env none output n = Area.areasLoop ker J env output n 0 g := by
  have e : Area.bottcherBase (J.sub 0) = .ok (⟨1, 1, 1, fun i => if i = 0 then (0 : K) else (J.sub 0) [0] i⟩ : Ser K) := by
    rw [Area.bottcherBase, Ser.setScalar, slowAssert_true (by simp [Ser.new, relu]), bok]
    simp [Ser.new, relu]
    rfl
  refine ⟨_, e, by norm_num, ?_⟩
  rw [Area.areasMain]
  simp only [e, bok]
  rw [show (1 : ℤ) = 2 ^ 0 by norm_num, Area.knownToK_pow (by omega), bok]
  simp

/-- C34.  A process runs to `k₁` and writes its files; a new process reads `g-k<k₁>` back, however it was batched and timed,
and runs on to `k₂`.  Together they write the same files as one process running to `k₂` directly and end with the same series;
if one of the two ways fails, the other fails in the same way.  The memory contents of the three processes are arbitrary and
unrelated.  Nothing is asked of the arithmetic; the multiplication functions look only at the cells of their operands, the area
at the series, and the number format round-trips. -/
theorem C34_resume {mul addmul : ℕ → Span K → Span K → Res (ℕ → K)} {sqr : ℕ → Span K → Res (ℕ → K)}
    (hloc : Ser.Local mul addmul sqr) {env : Area.Env K} (henv : env.Local) {fmt : K → Str}
    (hmode : '\n' ∉ env.mode) (hmu : ∀ f, '\n' ∉ env.muText f) {k₁ k₂ : ℕ} (h1 : 1 ≤ k₁) (h2 : k₁ ≤ k₂)
    {J₁ B₁ : Junk K} {files : List (Area.FileReq K)} {g : Ser K}
    (run : Area.areasMain (hostKer B₁ mul addmul sqr) J₁ env none true k₁ = .ok (files, g))
    (codec : ∀ i : ℕ, (i : ℤ) < g.nonzero → Codec fmt env.parse (g.data i)) :
    ∃ before rg rf, files = before ++ [rg, rf] ∧ rg.letter = 'g' ∧ rg.k = k₁ ∧ rg.series = g ∧
      ∀ (time : Str) (batch : ℤ) (file : Str), '\n' ∉ time → Plain time → 1 ≤ batch →
        WriteSeries fmt rg.comments time rg.series batch file → ∀ J₂ B₂ J₃ B₃ : Junk K,
        RelRes (fun direct resumed => List.Forall₂ Spec.SameFile direct.1 (files ++ resumed.1) ∧
            Spec.SameSeries direct.2 resumed.2)
          (Area.areasMain (hostKer B₂ mul addmul sqr) J₂ env none true k₂)
          (Area.areasMain (hostKer B₃ mul addmul sqr) J₃ env (some file) true k₂) := by
  obtain ⟨g0, eb, hk0, em⟩ := areasMain_none (ker := hostKer B₁ mul addmul sqr) (J := J₁) (env := env) (output := true) k₁
  rw [em] at run
  have hkb := Ser.hostKer_knownBases B₁ mul addmul sqr
  obtain ⟨hkn, hl⟩ := Area.areasLoop_last hkb (by omega) hk0 run
  obtain ⟨h30, L, f, hL⟩ := hl h1
  simp only [Nat.zero_add] at hkn h30 hL
  have hb0 : ∀ J J' : Junk K, RelRes Ser.SimL (Area.bottcherBase J) (Area.bottcherBase J') := Area.bottcherBase_sim
  have hg : Ser.Sim g g := by
    have h0 := hb0 (J₁.sub 0) (J₁.sub 0)
    rw [eb] at h0
    have := Area.areasLoop_sim (Ser.hostKer_sim B₁ B₁ hloc) henv (J := J₁) (J' := J₁) (output := true) (n := k₁) (k := 0) h0.toSim
    rw [run] at this
    exact this.2
  refine ⟨L, _, _, hL, rfl, rfl, rfl, ?_⟩
  intro time batch file ht hp hb hw J₂ B₂ J₃ B₃
  obtain ⟨n, hn⟩ := Int.eq_ofNat_of_zero_le hg.left.wf.nonneg
  have hle := hg.left.wf.le_known
  have hp2 : (2 : ℤ) ^ k₁ < 2 ^ 63 := pow_lt_pow_right₀ (by norm_num) (by omega)
  have w : Writable fmt env.parse (env.comments (kw "g = log(f)") k₁ f) time g (2 ^ k₁) n :=
    { known := by rw [hkn]; push_cast; rfl
      nonzero := hn
      le := by rw [hkn, hn] at hle; exact_mod_cast hle
      fits := by exact_mod_cast hp2
      comments := comments_plain hmode (hmu f) k₁
      time := ⟨ht, hp⟩
      codec := fun i hi => codec i (by rw [hn]; exact_mod_cast hi) }
  obtain ⟨y, er, hy1, hy2, hy3, hy4⟩ := C32_roundtrip w hb hw (J₃.sub 0)
  have hgy : Ser.Sim g y := by
    refine ⟨hg.left, ⟨⟨?_, ?_, ?_⟩, ?_, ?_⟩, hy1.symm, hy2.symm, fun i hi => (hy4 i ?_).symm⟩
    · rw [hy2]; exact hg.left.wf.nonneg
    · rw [hy2, hy1]; exact hg.left.wf.le_known
    · rw [hy2, hy3]
    · rw [hy3]; exact lt_of_le_of_lt hle hg.left.known_lt
    · rw [hy1]; exact hg.left.known_lt
    · rw [hn] at hi; exact_mod_cast hi
  have eread : Area.readBottcher env (J₃.sub 0) file = .ok y := by
    rw [Area.readBottcher, er, bok]
    simp only
    rw [slowAssert_true, bok]
    · rfl
    · rw [Area.Env.comments, List.map_cons, List.cons_append, List.head?_cons, show kw "g = log(f)" = 'g' :: kw " = log(f)" from rfl,
        trim_nonspace (by decide)]
  have eres : Area.areasMain (hostKer B₃ mul addmul sqr) J₃ env (some file) true k₂ =
      Area.areasLoop (hostKer B₃ mul addmul sqr) J₃ env true (k₂ - k₁) k₁ y := by
    rw [Area.areasMain]
    simp only [eread, bok]
    rw [hy1, hkn, Area.knownToK_pow (by omega), bok]
    congr 1
    omega
  obtain ⟨g0', eb', hk0', em'⟩ := areasMain_none (ker := hostKer B₂ mul addmul sqr) (J := J₂) (env := env) (output := true) k₂
  rw [eres, em', show k₂ = k₁ + (k₂ - k₁) by omega, Area.areasLoop_add, show k₁ + (k₂ - k₁) - k₁ = k₂ - k₁ by omega, Nat.zero_add]
  have h0 := hb0 (J₂.sub 0) (J₁.sub 0)
  rw [eb, eb'] at h0
  have hs := Area.areasLoop_sim (Ser.hostKer_sim B₂ B₁ hloc) henv (J := J₂) (J' := J₁) (output := true) (n := k₁) (k := 0) h0.toSim
  rw [run] at hs
  cases er2 : Area.areasLoop (hostKer B₂ mul addmul sqr) J₂ env true k₁ 0 g0' with
  | error e => rw [er2] at hs; exact hs.elim
  | ok r =>
    rw [er2] at hs
    rw [bok]
    have hs3 := Area.areasLoop_sim (Ser.hostKer_sim B₂ B₃ hloc) henv (J := J₂) (J' := J₃) (output := true) (n := k₂ - k₁) (k := k₁)
      (Area.Sim.trans hs.2 hgy)
    revert hs3
    generalize Area.areasLoop (hostKer B₂ mul addmul sqr) J₂ env true (k₂ - k₁) k₁ r.2 = a
    generalize Area.areasLoop (hostKer B₃ mul addmul sqr) J₃ env true (k₂ - k₁) k₁ y = b
    intro hs3
    cases a <;> cases b <;> simp only [RelRes] at hs3
    · exact hs3
    · refine ⟨?_, hs3.2.known, hs3.2.nonzero, hs3.2.data⟩
      exact (List.rel_append hs.1 hs3.1).imp fun _ _ h => Same.spec h

/-- C34.  Only a file whose first comment is that of `g` is accepted. -/
theorem C34_wrong_file {ker : Ker K} {J : Junk K} {env : Area.Env K} {file : Str} {cs : List Str} {y : Ser K}
    (h : readSeries env.parse (J.sub 0) file = .ok (cs, y)) (hc : cs.head? ≠ some (kw "g = log(f)")) (output : Bool) (k : ℤ) :
    Area.areasMain ker J env (some file) output k = .error .assertion := by
  rw [Area.areasMain]
  simp only [Area.readBottcher, h, bok, slowAssert_false hc, berr]

/-- C34.  A file cut off after its comments is not refused: its zero terms are not a power of two, and `known_to_k` shifts by the
64 trailing zeros. -/
theorem C34_cut_witness {ker : Ker K} {J : Junk K} {env : Area.Env K} (output : Bool) (k : ℤ) :
    Area.areasMain ker J env (some (kw "# g = log(f)\n")) output k = .error .ub := by
  have h : readSeries env.parse (J.sub 0) (kw "# g = log(f)\n") = .ok ([kw "g = log(f)"], Ser.new 0 ((J.sub 0) [])) := rfl
  rw [Area.areasMain]
  simp only [Area.readBottcher, h, bok]
  rw [slowAssert_true (by rfl), bok]
  simp only [pok, bok]
  rfl

end

/-! ## Runs exist -/

section

variable {K : Type} [Field K] [CharZero K] [Ldexp K] [Ser.LawfulLdexp K] [DecidableEq K]

/-- With exact arithmetic and areas that are judged accurate, the loop runs to any `k ≤ 30` with or without output. -/
theorem areasLoop_runs {ker : Ker K} {N : ℕ} (hker : ker.Exact N) (J : Junk K) (env : Area.Env K) (output : Bool)
    (ha : ∀ k b f, env.accept k b f = true) (h1 : ∀ a, env.isOne a = true ↔ a = 1) (h0 : ∀ a, env.isZero a = true ↔ a = 0) :
    ∀ (n k : ℕ) (g : Ser K), k + n ≤ 30 → 2 ^ (k + n) ≤ N → g.WF → g.known = 2 ^ k → 1 ≤ g.nonzero → Spec.IsBottcher k g.at →
      ∃ r, Area.areasLoop ker J env output n k g = .ok r ∧ r.2.WF ∧ r.2.known = 2 ^ (k + n) := by
  intro n
  induction n with
  | zero => intro k g _ _ w h _ _; exact ⟨_, rfl, w, h⟩
  | succ n ih =>
    intro k g hk hN hg hgn hz hB
    have hN1 : 2 ^ (k + 1) ≤ N := (Nat.pow_le_pow_right (by norm_num) (by omega)).trans hN
    rcases C28_step hker (J.sub (k + 1)) env.accept k (by omega) g hg hgn hz hB hN1 with ⟨f', b, h, _⟩ |
      ⟨g', f', e, w1, w2, z1, l1, n1, n2, -, B, E⟩
    · rw [ha] at h; cases h
    obtain ⟨r, er, wr, kr⟩ := ih (k + 1) g' (by omega) (by rwa [show k + 1 + n = k + (n + 1) by omega]) w1 n1 z1 B
    have hf0 : f'.at 0 = 1 := E.1 (Nat.two_pow_pos _)
    have hg0 : g'.at 0 = 0 := B.1
    have zf : f'.nonzero ≠ 0 := by
      intro h
      have := hf0
      rw [Ser.at, if_neg (by rw [h]; simp)] at this
      exact zero_ne_one this
    have ew : Area.writeBottcher env f' g' = .ok [⟨'g', k + 1, env.comments (kw "g = log(f)") (k + 1) f', g'⟩,
        ⟨'f', k + 1, env.comments (kw "f = f(z) = 1/phi(1/z)") (k + 1) f', f'⟩] := by
      rw [Area.writeBottcher, n2, Area.knownToK_pow (by omega), bok, slowAssert_true (by rw [n1]), bok]
      have hz' : ¬(f'.nonzero = 0 ∨ g'.nonzero = 0) := by omega
      rw [if_neg hz', slowAssert_true, bok]
      · rfl
      · have := w2.nonneg
        rw [Ser.at, if_pos (by push_cast; omega)] at hf0
        rw [Ser.at, if_pos (by push_cast; omega)] at hg0
        exact ⟨(h1 _).mpr hf0, (h0 _).mpr hg0⟩
    have kr' : r.2.known = 2 ^ (k + (n + 1)) := by rw [kr]; congr 1; omega
    cases output
    · exact ⟨([] ++ r.1, r.2), by simp only [Area.areasLoop, e, bok, er, pok, Bool.false_eq_true, if_false], wr, kr'⟩
    · exact ⟨(_ ++ r.1, r.2), by simp only [Area.areasLoop, e, bok, ew, er, pok, if_true]; rfl, wr, kr'⟩

/-- C34.  With exact arithmetic and areas that are judged accurate, the program runs to any `k ≤ 30` and writes its files. -/
theorem C34_runs {ker : Ker K} {N : ℕ} (hker : ker.Exact N) (J : Junk K) (env : Area.Env K) (output : Bool)
    (ha : ∀ k b f, env.accept k b f = true) (h1 : ∀ a, env.isOne a = true ↔ a = 1) (h0 : ∀ a, env.isZero a = true ↔ a = 0)
    (k : ℕ) (hk : k ≤ 30) (hN : 2 ^ k ≤ N) :
    ∃ files g, Area.areasMain ker J env none output k = .ok (files, g) ∧ g.WF ∧ g.known = 2 ^ k := by
  obtain ⟨g, e, -, em⟩ := areasMain_none (ker := ker) (J := J) (env := env) (output := output) k
  obtain ⟨g', e', w, l, n, z, B⟩ := C28_base (K := K) (J.sub 0)
  rw [e] at e'
  cases e'
  obtain ⟨r, er, wr, kr⟩ := areasLoop_runs hker J env output ha h1 h0 k 0 g (by omega) (by rwa [Nat.zero_add]) w n z B
  exact ⟨r.1, r.2, by rw [em, er], wr, by rw [kr, Nat.zero_add]⟩

end

/-- A number format for rationals that round-trips. -/
noncomputable def exFmt (q : ℚ) : Str := showNat (Encodable.encode q)

open Classical in
/-- Its inverse. -/
noncomputable def exRead (s : Str) : Res ℚ := if h : ∃ q, exFmt q = s then .ok h.choose else .error .exception

theorem exFmt_codec (q : ℚ) : Codec exFmt exRead q where
  back := by
    have h : ∃ p, exFmt p = exFmt q := ⟨q, rfl⟩
    rw [exRead, dif_pos h]
    have h' := congrArg (digitsVal 0) h.choose_spec
    simp only [exFmt, digitsVal_showNat] at h'
    exact congrArg _ (Encodable.encode_injective h')
  head := by
    obtain ⟨d, l, e, hd, -⟩ := showNat_spec (Encodable.encode q)
    refine ⟨_, l, e, ?_⟩
    interval_cases d <;> decide
  line := newline_showNat _

/-- C34 example: rational arithmetic, the multiplication of the code generator, stop at `k = 3` and run on to `k = 5`; all the
hypotheses hold, a file is written, and both ways end with the same 32 terms. -/
example (J₁ J₂ J₃ : Junk ℚ) : ∃ (env : Area.Env ℚ) (file : Str) (files files' : List (Area.FileReq ℚ)) (g g' : Ser ℚ),
    Area.areasMain (hostKer J₂ naiveMul naiveMul fun n x => naiveMul n x x) J₂ env none true 5 = .ok (files, g) ∧
    Area.areasMain (hostKer J₃ naiveMul naiveMul fun n x => naiveMul n x x) J₃ env (some file) true 5 = .ok (files', g') ∧
    Spec.SameSeries g g' ∧ g.known = 32 := by
  let env : Area.Env ℚ := ⟨fun _ _ _ => true, fun _ => kw "1.5", fun a => decide (a = 1), fun a => decide (a = 0), exRead, kw "r"⟩
  have henv : env.Local := ⟨fun _ _ _ _ _ => rfl, fun _ _ _ => rfl⟩
  have hloc : Ser.Local (K := ℚ) naiveMul naiveMul fun n x => naiveMul n x x :=
    ⟨fun n _ _ _ _ hx hy => Ser.naiveMul_sim n hx hy, fun n _ _ _ _ hx hy => Ser.naiveMul_sim n hx hy,
      fun n _ _ hx => Ser.naiveMul_sim n hx hx⟩
  have hex : ∀ J : Junk ℚ, (hostKer J naiveMul naiveMul fun n x => naiveMul n x x).Exact 32 := fun J =>
    hostKer_exact J ⟨(codeletKer_exact (K := ℚ)).mul, (codeletKer_exact (K := ℚ)).addmul, (codeletKer_exact (K := ℚ)).sqr⟩
  have h1 : ∀ a, env.isOne a = true ↔ a = 1 := fun a => by simp [env]
  have h0 : ∀ a, env.isZero a = true ↔ a = 0 := fun a => by simp [env]
  obtain ⟨L, g₁, e₁, w₁, -⟩ := C34_runs (hex J₁) J₁ env true (fun _ _ _ => rfl) h1 h0 3 (by norm_num) (by norm_num)
  obtain ⟨files, g, e₂, -, k₂⟩ := C34_runs (hex J₂) J₂ env true (fun _ _ _ => rfl) h1 h0 5 (by norm_num) (by norm_num)
  have hm : ∀ f, '\n' ∉ env.muText f := fun _ => show '\n' ∉ kw "1.5" by decide
  obtain ⟨before, rg, rf, -, -, -, hrg, h⟩ := C34_resume (fmt := exFmt) hloc henv (by decide) hm (k₁ := 3) (k₂ := 5)
    (by norm_num) (by norm_num) e₁ fun i _ => exFmt_codec _
  obtain ⟨n, hn⟩ := Int.eq_ofNat_of_zero_le w₁.nonneg
  obtain ⟨file, hf⟩ := (C32_writes exFmt rg.comments (kw "time = now") rg.series n (by rw [hrg]; exact hn) 2).mpr (Or.inl (by norm_num))
  have := h (kw "time = now") 2 file (by decide) (by unfold Plain; decide) (by norm_num) hf J₂ J₂ J₃ J₃
  rw [e₂] at this
  cases e₃ : Area.areasMain (hostKer J₃ naiveMul naiveMul fun n x => naiveMul n x x) J₃ env (some file) true (5 : ℕ) with
  | error e => rw [e₃] at this; exact this.elim
  | ok r =>
    rw [e₃] at this
    exact ⟨env, file, files, r.1, g, r.2, e₂, e₃, this.2, by rw [k₂]; norm_num⟩

end Props

end Mandelbrot
