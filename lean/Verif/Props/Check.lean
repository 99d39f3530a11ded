import Verif.Area.Check
import Verif.Props.Resume
import Verif.Props.Junk

/-!
# What a completed run guarantees, and the options of the program (C60)
-/

set_option linter.unusedSectionVars false

namespace Mandelbrot.Props

open _root_.Mandelbrot.IO Area Ser

/-- What the library promises about the comparison: `mem x a` says that the real `x` is in the ball `a`. -/
structure CheckSound {K A : Type} (c : Check K A) (val : K → ℝ) (mem : ℝ → A → Prop) : Prop where
  exact : ∀ a, mem (val a) (c.exact a)
  sub : ∀ x y a b, mem x a → mem y b → mem (x - y) (c.sub a b)
  bound : ∀ x a, mem x a → ((|x| : ℝ) : EReal) ≤ c.bound a

/-- The real `x` is at most `tol` away from `y`. -/
def Spec.Within (tol : Dbl) (x y : ℝ) : Prop := ∃ t : EReal, tol = .val t ∧ ((|x - y| : ℝ) : EReal) ≤ t

section

variable {K A : Type} {c : Check K A} {val : K → ℝ} {mem : ℝ → A → Prop} {tol : Dbl}

/-- C60.  An accepted area is at most the tolerance away from every real in the ball of the table, up to `k = 16`; before the refinement
the tolerance is `1e-6`. -/
theorem C60_accept (h : CheckSound c val mem) {k : ℕ} (hk : k ≤ 16) {refine : Bool} {f : Ser K} (e : c.accept tol k refine f = true) {a : ℝ}
    (ha : mem a (c.table k)) : Spec.Within (if refine then tol else .val ((e6 : ℝ) : EReal)) (val (c.area f)) a := by
  rw [Check.accept, decide_eq_true_iff, Check.error, if_pos (show k < knownAreas by rw [knownAreas]; omega)] at e
  have hb := h.bound _ _ (h.sub _ _ _ _ ha (h.exact (c.area f)))
  rw [abs_sub_comm] at hb
  generalize (if refine then tol else .val ((e6 : ℝ) : EReal)) = goal at e ⊢
  cases goal with
  | nan => exact e.elim
  | val t => exact ⟨t, rfl, hb.trans e⟩

/-- C60.  Beyond `k = 16` nothing is compared: everything is accepted unless the tolerance is negative or not a number. -/
theorem C60_unchecked {k : ℕ} (hk : 16 < k) (f : Ser K) :
    c.accept tol k false f = true ∧ (c.accept tol k true f = true ↔ ∃ t : EReal, tol = .val t ∧ 0 ≤ t) := by
  have : ¬k < knownAreas := by rw [knownAreas]; omega
  constructor
  · rw [Check.accept, decide_eq_true_iff, Check.error, if_neg this]
    show (0 : EReal) ≤ ((e6 : ℝ) : EReal)
    exact_mod_cast (by unfold e6; positivity : (0 : ℝ) ≤ e6)
  · rw [Check.accept, decide_eq_true_iff, Check.error, if_neg this, if_pos rfl]
    cases tol with
    | nan => exact ⟨fun h => h.elim, fun ⟨t, h, _⟩ => by cases h⟩
    | val t => exact ⟨fun h => ⟨t, rfl, h⟩, fun ⟨t', h, h'⟩ => by cases h; exact h'⟩

/-- C60.  A tolerance that is not a number accepts nothing. -/
theorem C60_nan (k : ℕ) (f : Ser K) : c.accept .nan k true f = false := by
  rw [Check.accept, decide_eq_false_iff_not, if_pos rfl, Check.error]
  split_ifs <;> exact fun h => h

variable [Zero K] [One K] [Add K] [Sub K] [Neg K] [Mul K] [Div K] [IntCast K] [Ldexp K] [DecidableEq K] {ker : Ker K}

theorem knownToK_ok {n : ℤ} {k : ℕ} (h : knownToK n = .ok k) : k < 64 ∧ n = if k = 63 then -2 ^ 63 else 2 ^ k := by
  simp only [knownToK] at h
  by_cases h64 : countrZeroI64 n ≥ 64
  · rw [if_pos h64] at h; cases h
  · rw [if_neg h64] at h
    obtain ⟨_, e1, e⟩ := bind_eq_ok h
    cases e
    exact ⟨not_le.mp h64, slowAssert_ok e1⟩

theorem bottcherStep_accepts {J : Junk K} {accept : ℕ → Bool → Ser K → Bool} {g : Ser K} {k : ℕ} (hk : k ≤ 62) (hg : g.known = 2 ^ k)
    {r : Ser K × Ser K} (e : bottcherStep ker J accept g = .ok r) : accept (k + 1) true r.2 = true ∧ ∃ f, accept (k + 1) false f = true := by
  unfold bottcherStep at e
  rw [hg, knownToK_pow hk, bok] at e
  obtain ⟨p, _, e⟩ := bind_eq_ok e
  obtain ⟨g1, _, e⟩ := bind_eq_ok e
  obtain ⟨f1, _, e⟩ := bind_eq_ok e
  obtain ⟨_, e1, e⟩ := bind_eq_ok e
  obtain ⟨g2, _, e⟩ := bind_eq_ok e
  obtain ⟨f2, _, e⟩ := bind_eq_ok e
  obtain ⟨_, e2, e⟩ := bind_eq_ok e
  cases e
  exact ⟨slowAssert_ok e2, f1, slowAssert_ok e1⟩

/-- C60.  In any arithmetic: a step that returns has an area within the tolerance of the known one. -/
theorem C60_step (h : CheckSound c val mem) {J : Junk K} {g : Ser K} {k : ℕ} (hk : k + 1 ≤ 16) (hg : g.known = 2 ^ k) {r : Ser K × Ser K}
    (e : bottcherStep ker J (c.accept tol) g = .ok r) {a : ℝ} (ha : mem a (c.table (k + 1))) : Spec.Within tol (val (c.area r.2)) a := by
  have := C60_accept h hk (bottcherStep_accepts (by omega) hg e).1 ha
  rwa [if_pos rfl] at this

theorem areasLoop_accepts (hker : ker.KnownBases) {J : Junk K} {env : Env K} (P : ℕ → Ser K → Prop)
    (hP : ∀ k f, env.accept k true f = true → P k f) {n k : ℕ} (hk : k ≤ 62) {g : Ser K} (hg : g.known = 2 ^ k)
    {r : List (FileReq K) × Ser K} (e : areasLoop ker J env true n k g = .ok r) : k + n ≤ max k 30 ∧ ∀ q ∈ r.1, k < q.k ∧ q.k ≤ k + n ∧
      ∃ f : Ser K, P q.k f ∧ q.comments.getLast? = some (kw "mu = " ++ env.muText f) ∧ (q.letter = 'f' → q.series = f) := by
  induction n generalizing k g r with
  | zero => cases e; exact ⟨by omega, fun q hq => by cases hq⟩
  | succ n ih =>
    unfold areasLoop at e
    obtain ⟨⟨g1, f1⟩, e1, e⟩ := bind_eq_ok e
    obtain ⟨files, e2, e⟩ := bind_eq_ok e
    obtain ⟨⟨rest, g2⟩, e3, e⟩ := bind_eq_ok e
    cases e
    obtain ⟨hk', h1, h2⟩ := bottcherStep_known hker hk hg e1
    have ha := (bottcherStep_accepts hk hg e1).1
    simp only at h1 h2 ha
    obtain ⟨i0, i1⟩ := ih (by omega) h1 e3
    refine ⟨by omega, fun q hq => ?_⟩
    rcases List.mem_append.mp hq with hq | hq
    · simp only [writeBottcher] at e2
      rw [h2, knownToK_pow (by omega), bok] at e2
      obtain ⟨_, _, e2⟩ := bind_eq_ok e2
      split_ifs at e2
      · cases e2
      obtain ⟨_, _, e2⟩ := bind_eq_ok e2
      cases e2
      simp only [List.mem_cons, List.not_mem_nil, or_false] at hq
      rcases hq with rfl | rfl
      · exact ⟨by simp, by simp, f1, hP _ _ ha, rfl, fun h => by simp at h⟩
      · exact ⟨by simp, by simp, f1, hP _ _ ha, rfl, fun _ => rfl⟩
    · obtain ⟨j1, j2, j3⟩ := i1 q hq
      exact ⟨by omega, by omega, j3⟩

/-- C60.  In any arithmetic, with or without a file to resume from: every file that a completed run writes for `k ≤ 16` carries the text
of an area that is within the tolerance of the known one, and the file of `f` is the series with that area. -/
theorem C60_files (B : Junk K) (mul addmul : ℕ → Span K → Span K → Res (ℕ → K)) (sqr : ℕ → Span K → Res (ℕ → K)) (h : CheckSound c val mem)
    {J : Junk K} {env : Env K} (henv : env.accept = c.accept tol) {input : Option Str} {maxK : ℤ} {r : List (FileReq K) × Ser K}
    (e : areasMain (hostKer B mul addmul sqr) J env input true maxK = .ok r) : ∀ q ∈ r.1, q.k ≤ maxK ∧ ∃ f : Ser K,
      q.comments.getLast? = some (kw "mu = " ++ env.muText f) ∧ (q.letter = 'f' → q.series = f) ∧
      (q.k ≤ 16 → ∀ a, mem a (c.table q.k) → Spec.Within tol (val (c.area f)) a) := by
  obtain ⟨g, k0, ek, e⟩ : ∃ g k0, knownToK g.known = .ok k0 ∧
      areasLoop (hostKer B mul addmul sqr) J env true (maxK - k0).toNat k0 g = .ok r := by
    unfold areasMain at e
    cases input <;>
    · obtain ⟨g, _, e⟩ := bind_eq_ok e
      obtain ⟨k0, ek, e⟩ := bind_eq_ok e
      exact ⟨g, k0, ek, e⟩
  intro q hq
  by_cases hn : (maxK - k0).toNat = 0
  · rw [hn] at e; cases e; cases hq
  have hpos : k0 ≤ 62 ∧ g.known = 2 ^ k0 := by
    obtain ⟨h64, hk⟩ := knownToK_ok ek
    by_cases h63 : k0 = 63
    · exfalso
      obtain ⟨m, hm⟩ := Nat.exists_eq_succ_of_ne_zero hn
      rw [hm] at e
      unfold areasLoop at e
      obtain ⟨_, e2, _⟩ := bind_eq_ok e
      unfold bottcherStep at e2
      obtain ⟨k1, e3, e2⟩ := bind_eq_ok e2
      obtain ⟨p, e4, _⟩ := bind_eq_ok e2
      rw [ek] at e3
      cases e3
      rw [h63, shl32, if_pos (by norm_num)] at e4
      cases e4
    · rw [if_neg h63] at hk
      exact ⟨by omega, hk⟩
  obtain ⟨-, h2⟩ := areasLoop_accepts (hostKer_knownBases B mul addmul sqr)
    (P := fun k f => k ≤ 16 → ∀ a, mem a (c.table k) → Spec.Within tol (val (c.area f)) a)
    (fun k f hf hk a ha => by
      rw [henv] at hf
      have := C60_accept h hk hf ha
      rwa [if_pos rfl] at this) hpos.1 hpos.2 e
  obtain ⟨_, q2, f, q3, q4, q5⟩ := h2 q hq
  exact ⟨by omega, f, q4, q5, q3⟩

/-- C60.  A run from scratch that is asked for more than `2^30` terms never ends normally; in particular without `-k`. -/
theorem C60_endless (B : Junk K) (mul addmul : ℕ → Span K → Span K → Res (ℕ → K)) (sqr : ℕ → Span K → Res (ℕ → K)) (J : Junk K) (env : Env K)
    {maxK : ℤ} (hm : 30 < maxK) (r : List (FileReq K) × Ser K) :
    areasMain (hostKer B mul addmul sqr) J env none true maxK ≠ .ok r := by
  intro e
  obtain ⟨g, e1, hg, em⟩ := areasMain_none (ker := hostKer B mul addmul sqr) (J := J) (env := env) (output := true) maxK.toNat
  rw [Int.toNat_of_nonneg (by omega)] at em
  rw [em] at e
  obtain ⟨h1, -⟩ := areasLoop_accepts (hostKer_knownBases B mul addmul sqr) (P := fun _ _ => True) (fun _ _ _ => trivial)
    (by omega) (by simpa using hg) e
  omega

end

/-! ## Options -/

/-- C60.  `-k`: finite numbers are truncated and cut at 1000, no option (infinity) and not a number mean 1000.  Numbers too small for an
`int` are undefined. -/
theorem C60_k : (∀ x : ℝ, 0 ≤ x → kOption (.val (x : EReal)) = .ok (min ⌊x⌋ 1000)) ∧ kOption (.val ⊤) = .ok 1000 ∧
    kOption .nan = .ok 1000 ∧ kOption (.val ⊥) = .error .ub ∧
    (∀ x : ℝ, x < 0 → -2 ^ 31 ≤ ⌈x⌉ → kOption (.val (x : EReal)) = .ok ⌈x⌉) ∧
    ∀ x : ℝ, ⌈x⌉ < -2 ^ 31 → kOption (.val (x : EReal)) = .error .ub := by
  have hR : ∀ x : ℝ, (Dbl.val (x : EReal)).toInt = if -2 ^ 31 ≤ trunc x ∧ trunc x < 2 ^ 31 then .ok (trunc x) else .error .ub := by
    intro x
    simp only [Dbl.toInt, EReal.toReal_coe, ne_eq, EReal.coe_ne_top, EReal.coe_ne_bot, not_false_eq_true, true_and]
  have h1000 : (Dbl.val ((1000 : ℝ) : EReal)).toInt = .ok 1000 := by
    have hf : trunc 1000 = 1000 := by rw [trunc, if_pos (by norm_num), Int.floor_eq_iff]; norm_num
    rw [hR, hf]; norm_num
  have hlt : ∀ x : ℝ, (Dbl.val (x : EReal)).lt (.val ((1000 : ℝ) : EReal)) ↔ x < 1000 := fun x => EReal.coe_lt_coe_iff
  refine ⟨fun x h0 => ?_, ?_, ?_, ?_, fun x h0 h1 => ?_, fun x h1 => ?_⟩
  · by_cases h : x < 1000
    · have hf : ⌊x⌋ < 1000 := by rw [Int.floor_lt]; exact_mod_cast h
      have hf0 : 0 ≤ ⌊x⌋ := Int.floor_nonneg.mpr h0
      rw [kOption, if_pos ((hlt x).mpr h), hR, trunc, if_pos h0, if_pos (by omega), min_eq_left (by omega)]
    · have hf : 1000 ≤ ⌊x⌋ := by rw [Int.le_floor]; push_cast; linarith
      rw [kOption, if_neg (fun h' => h ((hlt x).mp h')), min_eq_right hf, h1000]
  · have : ¬(Dbl.val ⊤).lt (.val ((1000 : ℝ) : EReal)) := not_top_lt
    rw [kOption, if_neg this, h1000]
  · have : ¬Dbl.nan.lt (.val ((1000 : ℝ) : EReal)) := fun h => h
    rw [kOption, if_neg this, h1000]
  · have : (Dbl.val ⊥).lt (.val ((1000 : ℝ) : EReal)) := EReal.bot_lt_coe _
    rw [kOption, if_pos this, Dbl.toInt, if_neg (fun h => h.2.1 rfl)]
  · have hc : ⌈x⌉ ≤ 0 := Int.ceil_le.mpr (by push_cast; exact h0.le)
    rw [kOption, if_pos ((hlt x).mpr (by linarith)), hR, trunc, if_neg (not_le.mpr h0), if_pos (by omega)]
  · have hneg : x < 0 := (Int.le_ceil x).trans_lt (by exact_mod_cast h1.trans (by norm_num))
    rw [kOption, if_pos ((hlt x).mpr (by linarith)), hR, trunc, if_neg (not_le.mpr hneg), if_neg (by omega)]

section

variable {α : Type} {modes : List (Str × (ℤ → Args → Res α))} {mkdirOk : Str → Bool} {a : Args}

theorem orDie_error (e : Err) (h : e ≠ .ub) : orDie (.error e : Res α) = .error .die := by
  cases e <;> first | rfl | exact absurd rfl h

/-- C60.  The program dies before it computes anything if `--prec` is given for a mode other than `arb`, if the output directory cannot be
made (so results of an earlier run are never overwritten), or if the mode is unknown. -/
theorem C60_refused (h : (a.precUsed = true ∧ a.mode ≠ kw "arb") ∨ (∃ d, a.output = some d ∧ mkdirOk d = false) ∨
    modes.lookup a.mode = none) : main modes mkdirOk a = .error .die := by
  rw [main]
  by_cases h1 : a.precUsed = true ∧ a.mode ≠ kw "arb"
  · rw [if_pos h1]; rfl
  rw [if_neg h1]
  cases ho : a.output with
  | none =>
    simp only [ho] at h
    rcases h with h | h | h
    · exact absurd h h1
    · obtain ⟨d, hd, _⟩ := h; cases hd
    · simp only [h]; rfl
  | some d =>
    by_cases hd : mkdirOk d = true
    · simp only [ho] at h
      rcases h with h | h | h
      · exact absurd h h1
      · obtain ⟨d', e, hd'⟩ := h; cases e; rw [hd] at hd'; cases hd'
      · simp only [if_pos hd, h]; rfl
    · simp only [if_neg hd]; rfl

/-- C60.  Otherwise the chosen mode runs with the truncated `-k`, and every exception it throws ends in `die`. -/
theorem C60_runs (h1 : a.precUsed = true → a.mode = kw "arb") (h2 : ∀ d, a.output = some d → mkdirOk d = true)
    {f : ℤ → Args → Res α} (h3 : modes.lookup a.mode = some f) : main modes mkdirOk a = orDie (kOption a.k >>= fun k => f k a) := by
  rw [main, if_neg (fun h => h.2 (h1 h.1))]
  cases ho : a.output with
  | none => simp only [h3]
  | some d => simp only [if_pos (h2 d ho), h3]

/-- C60.  There is no other way to end. -/
theorem C60_outcomes : (∃ r, main modes mkdirOk a = .ok r) ∨ main modes mkdirOk a = .error .die ∨ main modes mkdirOk a = .error .ub := by
  have : ∀ x : Res α, (∃ r, orDie x = .ok r) ∨ orDie x = .error .die ∨ orDie x = .error .ub := by
    rintro (e | r)
    · cases e <;> simp [orDie]
    · exact Or.inl ⟨r, rfl⟩
  exact this _

end

/-! ## Examples -/

/-- C60 example: intervals as balls. -/
noncomputable def exCheck : Check ℝ (ℝ × ℝ) where
  area f := f.data 0
  table k := (3 - (1 / 2) ^ k, 3)
  exact a := (a, a)
  sub a b := (a.1 - b.2, a.2 - b.1)
  bound a := ((max |a.1| |a.2| : ℝ) : EReal)

theorem exCheck_sound : CheckSound exCheck id fun x a => a.1 ≤ x ∧ x ≤ a.2 where
  exact a := ⟨le_rfl, le_rfl⟩
  sub x y a b h h' := ⟨by simp only [exCheck]; linarith [h.1, h'.2], by simp only [exCheck]; linarith [h.2, h'.1]⟩
  bound x a h := by
    show ((|x| : ℝ) : EReal) ≤ ((max |a.1| |a.2| : ℝ) : EReal)
    exact_mod_cast abs_le_max_abs_abs h.1 h.2

/-- An accepted and a refused area. -/
example : exCheck.accept (.val ((1 : ℝ) : EReal)) 2 true ⟨1, 1, 1, fun _ => 3⟩ = true ∧
    exCheck.accept (.val ((1 : ℝ) : EReal)) 2 true ⟨1, 1, 1, fun _ => 5⟩ = false ∧
    exCheck.accept (.val ((1 : ℝ) : EReal)) 17 true ⟨1, 1, 1, fun _ => 5⟩ = true := by
  refine ⟨?_, ?_, ?_⟩
  · rw [Check.accept, decide_eq_true_iff, Check.error, if_pos (by decide), if_pos rfl]
    show ((max |_| |_| : ℝ) : EReal) ≤ ((1 : ℝ) : EReal)
    rw [EReal.coe_le_coe_iff]
    norm_num [exCheck]
  · rw [Check.accept, decide_eq_false_iff_not, Check.error, if_pos (by decide), if_pos rfl]
    show ¬((max |_| |_| : ℝ) : EReal) ≤ ((1 : ℝ) : EReal)
    rw [EReal.coe_le_coe_iff]
    norm_num [exCheck]
  · exact ((C60_unchecked (c := exCheck) (by norm_num) _).2).mpr ⟨_, rfl, by exact_mod_cast zero_le_one⟩

/-- C60 example: a run of five steps that the check lets through, with areas that are all printed as 0; it writes ten files. -/
noncomputable def exCheck0 : Check ℚ ℝ where
  area _ := 0
  table _ := 0
  exact a := a
  sub a b := a - b
  bound a := ((|a| : ℝ) : EReal)

example (J : Junk ℚ) : ∃ (env : Env ℚ) (files : List (FileReq ℚ)) (g : Ser ℚ), env.accept = exCheck0.accept (.val ((1 / 2 : ℝ) : EReal)) ∧
    areasMain (hostKer J naiveMul naiveMul fun n x => naiveMul n x x) J env none true 5 = .ok (files, g) ∧
    ∀ q ∈ files, q.k ≤ 5 ∧ ∃ f : Ser ℚ, (q.letter = 'f' → q.series = f) ∧ Spec.Within (.val ((1 / 2 : ℝ) : EReal)) (exCheck0.area f : ℚ) 0 := by
  let env : Env ℚ := ⟨exCheck0.accept (.val ((1 / 2 : ℝ) : EReal)), fun _ => kw "0", fun a => decide (a = 1), fun a => decide (a = 0),
    fun _ => .error .exception, kw "r"⟩
  have hs : CheckSound exCheck0 (fun a : ℚ => (a : ℝ)) fun x a => x = a :=
    ⟨fun _ => rfl, fun x y a b h h' => by rw [h, h']; rfl, fun x a h => by rw [h]; exact le_rfl⟩
  have ha : ∀ k b f, env.accept k b f = true := by
    intro k b f
    show exCheck0.accept _ k b f = true
    rw [Check.accept, decide_eq_true_iff, Check.error]
    have h0 : exCheck0.bound (exCheck0.sub (exCheck0.table k) (exCheck0.exact (exCheck0.area f))) = 0 := by simp [exCheck0]
    have h1 : (0 : EReal) ≤ ((1 / 2 : ℝ) : EReal) := by exact_mod_cast (by norm_num : (0 : ℝ) ≤ 1 / 2)
    have h2 : (0 : EReal) ≤ ((e6 : ℝ) : EReal) := by exact_mod_cast (by unfold e6; positivity : (0 : ℝ) ≤ e6)
    rw [h0]
    cases b <;> split_ifs <;> first | exact h2 | exact h1
  obtain ⟨files, g, e, -⟩ := C34_runs (N := 32) (hostKer_exact J ⟨(codeletKer_exact (K := ℚ)).mul, (codeletKer_exact (K := ℚ)).addmul,
    (codeletKer_exact (K := ℚ)).sqr⟩) J env true ha (fun a => by simp [env]) (fun a => by simp [env]) 5 (by norm_num) (by norm_num)
  refine ⟨env, files, g, rfl, e, fun q hq => ?_⟩
  obtain ⟨h1, f, -, h2, h3⟩ := C60_files (c := exCheck0) J _ _ _ hs (env := env) rfl e q hq
  exact ⟨by exact_mod_cast h1, f, h2, h3 (by omega) 0 rfl⟩

end Mandelbrot.Props
