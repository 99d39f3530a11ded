import Verif.Float.Nearest
import Verif.Float.Expansion
import Mathlib.Analysis.Complex.Trigonometric
import Mathlib.Tactic.NormNum

/-!
# Correctly rounded constants: C47, C48
-/

namespace Mandelbrot.Float

open Classical

variable {F : Fmt} {M : Machine} {A : ArbOps}

/-! ## Specification -/

/-- The rounding to `n` components: each component is the rounding of what is left. -/
def greedy (rn : ℝ → ℝ) : ℕ → ℝ → List ℝ
  | 0, _ => []
  | n + 1, v => rn v :: greedy rn n (v - rn v)

/-- `v` lies between the bounds; a bound that is not a number says nothing. -/
def Encl (ab : D × D) (v : ℝ) : Prop :=
  (match ab.1 with | .fin a => a ≤ v | .pinf => False | _ => True) ∧ (match ab.2 with | .fin b => v ≤ b | .ninf => False | _ => True)

/-- What Arb promises: results contain the result for every choice of numbers in the operands. -/
structure ArbOps.Sound (A : ArbOps) : Prop where
  interval : ∀ {c v} (p), A.Mem c v → Encl (A.interval c p) v
  ofD : ∀ v, A.Mem (A.ofD (.fin v)) v
  sub : ∀ {a b v w} (p), A.Mem a v → A.Mem b w → A.Mem (A.sub a b p) (v - w)
  inf : ∀ {c} (p), ¬ c.isFin → ¬ (A.interval (A.ofD c) p).1.isFin

/-- What Arb promises of the functions. -/
structure ArbFns.Sound (G : ArbFns A) : Prop where
  pi : ∀ p, A.Mem (G.pi p) Real.pi
  ofInt : ∀ a : ℤ, A.Mem (G.ofInt a) a
  divNat : ∀ {c v} (k p : ℕ), k ≠ 0 → A.Mem c v → A.Mem (G.divNat c k p) (v / k)
  sqrt : ∀ {c v} (p), 0 ≤ v → A.Mem c v → A.Mem (G.sqrt c p) (Real.sqrt v)
  cisPi : ∀ (t : ℚ) (p), A.Mem (G.cisPi t p).1 (Real.cos (Real.pi * t)) ∧ A.Mem (G.cisPi t p).2 (Real.sin (Real.pi * t))
  mulC : ∀ {z w : A.Ball × A.Ball} {a b c d : ℝ} (p), A.Mem z.1 a → A.Mem z.2 b → A.Mem w.1 c → A.Mem w.2 d →
    A.Mem (G.mulC z w p).1 (a * c - b * d) ∧ A.Mem (G.mulC z w p).2 (a * d + b * c)

/-- Intervals: an implementation that keeps the promises. -/
def intervals : ArbOps where
  Ball := D × D
  Mem := Encl
  interval c _ := c
  ofD c := (c, c)
  sub a b _ := ((match a.1, b.2 with | .fin x, .fin y => .fin (x - y) | _, _ => .nan), (match a.2, b.1 with | .fin x, .fin y => .fin (x - y) | _, _ => .nan))

theorem intervals_sound : intervals.Sound where
  interval _ h := h
  ofD v := ⟨le_rfl, le_rfl⟩
  inf _ h := h
  sub := by
    rintro ⟨a1, a2⟩ ⟨b1, b2⟩ v w p ⟨h1, h2⟩ ⟨h3, h4⟩
    constructor
    · cases a1 <;> cases b2 <;> simp_all [intervals]
      linarith
    · cases a2 <;> cases b1 <;> simp_all [intervals]
      linarith

/-! ## Lemmas -/

theorem D.same_fin {a : D} {x : ℝ} (h : (D.fin x).same a) : a = .fin x := by
  cases a <;> simp_all [D.same]

theorem Machine.get_fin {c : D} {d : ℝ} (h : M.get c = .fin d) : ∃ v, c = .fin v ∧ d = M.rn v ∧ |d| ≤ M.largest := by
  cases c with
  | fin v =>
    refine ⟨v, rfl, ?_⟩
    simp only [Machine.get] at h
    split at h
    · cases h
    · split at h
      · cases h
      · rename_i h1 h2
        injection h with h
        subst h
        exact ⟨rfl, abs_le.mpr ⟨not_lt.mp h2, not_lt.mp h1⟩⟩
  | pinf => cases h
  | ninf => cases h
  | nan => cases h

theorem squeeze (h : F.Rounds M.rn) {a v b : ℝ} (h1 : a ≤ v) (h2 : v ≤ b) (e : M.rn a = M.rn b) : M.rn v = M.rn a := by
  rcases h1.eq_or_lt with rfl | h1
  · rfl
  rcases h2.eq_or_lt with rfl | h2
  · exact e.symm
  exact le_antisymm (by rw [e]; exact (h v).mono (h b) h2) ((h a).mono (h v) h1)

theorem isFin_iff {c : D} : c.isFin ↔ ∃ x, c = .fin x := by
  cases c <;> simp [D.isFin]

theorem roundNearestD_spec (h : F.Rounds M.rn) (hA : A.Sound) {c : A.Ball} {prec : ℕ} {d v : ℝ} (hv : A.Mem c v)
    (hr : roundNearestD M A c prec = some (.fin d)) : d = M.rn v ∧ |d| ≤ M.largest ∧ (A.interval c prec).1.isFin := by
  simp only [roundNearestD] at hr
  split at hr
  · rename_i hc
    injection hr with hr
    have hs : (M.get (A.interval c prec).1).same (M.get (A.interval c prec).2) := by
      rcases hc with hc | hc
      · exact hc
      · exact absurd (by rw [hr]; trivial) hc
    rw [hr] at hs
    obtain ⟨a, ha, hda, hl⟩ := Machine.get_fin hr
    obtain ⟨b, hb, hdb, _⟩ := Machine.get_fin (D.same_fin hs)
    obtain ⟨e1, e2⟩ := hA.interval prec hv
    rw [ha] at e1
    rw [hb] at e2
    refine ⟨?_, hl, by rw [ha]; trivial⟩
    rw [squeeze h e1 e2 (hda.symm.trans hdb), hda]
  · cases hr

theorem expComponents_spec (h : F.Rounds M.rn) (hA : A.Sound) (prec : ℕ) : ∀ (n : ℕ) (c : A.Ball) (v : ℝ) (e : List D), A.Mem c v →
    expComponents M A prec n c = some e → finAll e → e = (greedy M.rn n v).map .fin ∧ ∀ d ∈ greedy M.rn n v, |d| ≤ M.largest := by
  intro n
  induction n with
  | zero =>
    intro c v e _ he _
    injection he with he
    subst he
    exact ⟨rfl, by simp [greedy]⟩
  | succ n ih =>
    intro c v e hv he hf
    rw [expComponents] at he
    split at he
    · cases he
    · rename_i x hx
      obtain ⟨e', he', rfl⟩ := Option.map_eq_some_iff.mp he
      obtain ⟨d, rfl⟩ := isFin_iff.mp (hf x (by simp))
      obtain ⟨hd, hl, _⟩ := roundNearestD_spec h hA hv hx
      obtain ⟨h1, h2⟩ := ih _ (v - d) e' (hA.sub prec hv (hA.ofD d)) he' fun a ha => hf a (by simp [ha])
      subst hd
      refine ⟨by rw [h1]; rfl, ?_⟩
      intro g hg
      simp only [greedy, List.mem_cons] at hg
      rcases hg with rfl | hg
      · exact hl
      · exact h2 g hg

theorem roundExp_eq {n : ℕ} {c : D} {e : List D} : ∀ {prec : ℕ}, roundExp M A n c prec = .ok e →
    ∃ p, expComponents M A p n (A.ofD c) = some e := by
  intro prec
  induction hm : 10001 - prec using Nat.strong_induction_on generalizing prec with
  | _ k ih =>
    intro he
    rw [roundExp] at he
    split at he
    · rename_i hp
      split at he
      · rename_i e' he'
        injection he with he
        subst he
        exact ⟨prec, he'⟩
      · exact ih (10001 - 2 * prec) (by omega) rfl he
    · cases he

theorem roundNear_spec (h : F.Rounds M.rn) (hA : A.Sound) {S : Ty} (hS : 1 ≤ S.size) {c : D} {e : List D} (he : roundNear M A S c = .ok e)
    (hf : finAll e) : ∃ v, c = .fin v ∧ e = (greedy M.rn S.size v).map .fin ∧ ∀ d ∈ greedy M.rn S.size v, |d| ≤ M.largest := by
  cases S with
  | double =>
    simp only [roundNear] at he
    injection he with he
    subst he
    obtain ⟨d, hd⟩ := isFin_iff.mp (hf (M.get c) (by simp))
    obtain ⟨v, rfl, rfl, hl⟩ := Machine.get_fin hd
    exact ⟨v, rfl, by rw [hd]; rfl, by simpa [greedy, Ty.size] using hl⟩
  | expansion n =>
    obtain ⟨p, hp⟩ := roundExp_eq (show roundExp M A n c (60 * n) = .ok e from he)
    have hc : c.isFin := by
      by_contra hc
      obtain ⟨k, rfl⟩ : ∃ k, n = k + 1 := ⟨n - 1, by simp only [Ty.size] at hS; omega⟩
      have hi := hA.inf p hc
      rw [expComponents] at hp
      split at hp
      · cases hp
      · rename_i x hx
        obtain ⟨e', _, rfl⟩ := Option.map_eq_some_iff.mp hp
        obtain ⟨d, rfl⟩ := isFin_iff.mp (hf x (by simp))
        simp only [roundNearestD] at hx
        split at hx
        · injection hx with hx
          obtain ⟨v, hv, _⟩ := Machine.get_fin hx
          exact hi (by rw [hv]; trivial)
        · cases hx
    obtain ⟨v, rfl⟩ := isFin_iff.mp hc
    exact ⟨v, rfl, expComponents_spec h hA p n _ v e (hA.ofD v) hp hf⟩

theorem sameAll_fin : ∀ {x y : List D}, sameAll x y → finAll x → x = y := by
  intro x
  induction x with
  | nil => intro y h _; cases y <;> simp_all [sameAll]
  | cons a x ih =>
    intro y h hf
    cases y with
    | nil => cases h
    | cons b y =>
      obtain ⟨d, rfl⟩ := isFin_iff.mp (hf a (by simp))
      rw [D.same_fin h.1, ih h.2 fun c hc => hf c (by simp [hc])]

theorem greedy_squeeze (h : F.Rounds M.rn) : ∀ (n : ℕ) {a v b : ℝ}, a ≤ v → v ≤ b → greedy M.rn n a = greedy M.rn n b →
    greedy M.rn n v = greedy M.rn n a := by
  intro n
  induction n with
  | zero => intros; rfl
  | succ n ih =>
    intro a v b h1 h2 e
    simp only [greedy, List.cons.injEq] at e ⊢
    have hs := squeeze h h1 h2 e.1
    refine ⟨hs, ?_⟩
    rw [hs]
    exact ih (by linarith) (by rw [e.1]; linarith) e.2

theorem roundNearest_ok {S : Ty} {c : A.Ball} {prec : ℕ} {o : Option (List D)} (hr : roundNearest M A S c prec = .ok o) :
    ∃ a b, roundNear M A S (A.interval c prec).1 = .ok a ∧ roundNear M A S (A.interval c prec).2 = .ok b ∧
      o = if sameAll a b ∨ ¬ finAll a then some a else none := by
  simp only [roundNearest] at hr
  cases ha : roundNear M A S (A.interval c prec).1 with
  | error e => rw [ha] at hr; cases hr
  | ok a =>
    cases hb : roundNear M A S (A.interval c prec).2 with
    | error e => rw [ha, hb] at hr; cases hr
    | ok b =>
      rw [ha, hb] at hr
      injection hr with hr
      exact ⟨a, b, rfl, rfl, hr.symm⟩

/-! ## C47 -/

/-- **C47.** Whatever finite value `round_nearest` returns for a ball is the rounding of every number in the ball. -/
theorem C47_round_nearest (h : F.Rounds M.rn) (hA : A.Sound) {S : Ty} (hS : 1 ≤ S.size) {c : A.Ball} {prec : ℕ} {v : ℝ} {e : List D}
    (hv : A.Mem c v) (hr : roundNearest M A S c prec = .ok (some e)) (hf : finAll e) :
    e = (greedy M.rn S.size v).map .fin ∧ ∀ d ∈ greedy M.rn S.size v, |d| ≤ M.largest := by
  obtain ⟨a, b, ha, hb, ho⟩ := roundNearest_ok hr
  split at ho
  · rename_i hc
    injection ho with ho
    subst ho
    have hs : sameAll e b := hc.resolve_right (not_not.mpr hf)
    have hab := sameAll_fin hs hf
    subst hab
    obtain ⟨x, hx, ex, lx⟩ := roundNear_spec h hA hS ha hf
    obtain ⟨y, hy, ey, _⟩ := roundNear_spec h hA hS hb hf
    obtain ⟨e1, e2⟩ := hA.interval prec hv
    rw [hx] at e1
    rw [hy] at e2
    have hinj : Function.Injective D.fin := fun a b h => by injection h
    have := greedy_squeeze h S.size e1 e2 (hinj.list_map (ex.symm.trans ey))
    rw [this]
    exact ⟨ex, lx⟩
  · cases ho

/-- **C47.** Whatever `round_nearest` returns is the rounding of the lower bound, so a result that is not finite comes from a lower bound
that is not finite or is too large. -/
theorem C47_lower_bound {S : Ty} {c : A.Ball} {prec : ℕ} {e : List D} (hr : roundNearest M A S c prec = .ok (some e)) :
    roundNear M A S (A.interval c prec).1 = .ok e := by
  obtain ⟨a, b, ha, hb, ho⟩ := roundNearest_ok hr
  split at ho
  · injection ho with ho
    rw [ho]; exact ha
  · cases ho

/-- What trying one precision after the other means. -/
def firstOf {R : Type} (round : ℕ → Res (Option R)) : List ℕ → Res R
  | [] => .error .die
  | p :: ps =>
    match round p with
    | .error e => .error e
    | .ok (some c) => .ok c
    | .ok none => firstOf round ps

/-- **C47.** `nearest` tries the precisions 200, 400, 800, 1600 and 3200, returns the first success and dies if there is none. -/
theorem C47_precisions {R : Type} (round : ℕ → Res (Option R)) : nearestFrom round 200 = firstOf round [200, 400, 800, 1600, 3200] := by
  have step : ∀ p, 0 < p → ¬ 2 * p > 3200 → nearestFrom round p = match round p with
      | .error e => .error e
      | .ok (some c) => .ok c
      | .ok none => nearestFrom round (2 * p) := by
    intro p h0 h1
    rw [nearestFrom, if_pos h0]
    cases round p with
    | error e => rfl
    | ok o => cases o with
      | none => exact if_neg h1
      | some c => rfl
  have last : nearestFrom round 3200 = firstOf round [3200] := by
    rw [nearestFrom, if_pos (by norm_num)]
    simp only [firstOf]
    cases round 3200 with
    | error e => rfl
    | ok o => cases o with
      | none => exact if_pos (by norm_num)
      | some c => rfl
  rw [step 200 (by norm_num) (by norm_num), step 400 (by norm_num) (by norm_num), step 800 (by norm_num) (by norm_num),
    step 1600 (by norm_num) (by norm_num), last]
  rfl

theorem firstOf_ok {R : Type} {round : ℕ → Res (Option R)} {c : R} : ∀ {ps : List ℕ}, firstOf round ps = .ok c → ∃ p ∈ ps, round p = .ok (some c) := by
  intro ps
  induction ps with
  | nil => intro h; cases h
  | cons p ps ih =>
    intro h
    rw [firstOf] at h
    split at h
    · cases h
    · rename_i c' hc
      injection h with h
      subst h
      exact ⟨p, by simp, hc⟩
    · obtain ⟨q, hq, hr⟩ := ih h
      exact ⟨q, by simp [hq], hr⟩

/-- **C47.** If the enclosures contain the number, a finite result of `nearest` is its rounding, whatever the precision it stopped at. -/
theorem C47_nearest (h : F.Rounds M.rn) (hA : A.Sound) {S : Ty} (hS : 1 ≤ S.size) {f : ℕ → A.Ball} {v : ℝ} {e : List D}
    (hv : ∀ prec, A.Mem (f prec) v) (hr : nearest M A S f = .ok e) (hf : finAll e) :
    e = (greedy M.rn S.size v).map .fin ∧ ∀ d ∈ greedy M.rn S.size v, |d| ≤ M.largest := by
  rw [nearest, C47_precisions] at hr
  obtain ⟨p, _, hp⟩ := firstOf_ok hr
  exact C47_round_nearest h hA hS (hv p) hp hf

theorem roundNearestC_ok {S : Ty} {z : A.Ball × A.Ball} {prec : ℕ} {r i : List D} (hr : roundNearestC M A S z prec = .ok (some (r, i))) :
    roundNearest M A S z.1 prec = .ok (some r) ∧ roundNearest M A S z.2 prec = .ok (some i) := by
  simp only [roundNearestC] at hr
  cases h1 : roundNearest M A S z.1 prec with
  | error e => rw [h1] at hr; cases hr
  | ok o =>
    rw [h1] at hr
    cases o with
    | none => cases hr
    | some r' =>
      cases h2 : roundNearest M A S z.2 prec with
      | error e => rw [h2] at hr; cases hr
      | ok o =>
        rw [h2] at hr
        cases o with
        | none => cases hr
        | some i' =>
          injection hr with hr
          injection hr with hr
          injection hr with hr1 hr2
          rw [hr1, hr2]
          exact ⟨rfl, rfl⟩

/-- **C47.** The same for complex numbers. -/
theorem C47_nearest_complex (h : F.Rounds M.rn) (hA : A.Sound) {S : Ty} (hS : 1 ≤ S.size) {f : ℕ → A.Ball × A.Ball} {v w : ℝ} {r i : List D}
    (hv : ∀ prec, A.Mem (f prec).1 v) (hw : ∀ prec, A.Mem (f prec).2 w) (hr : nearestC M A S f = .ok (r, i)) (hf : finAll r) (hg : finAll i) :
    r = (greedy M.rn S.size v).map .fin ∧ i = (greedy M.rn S.size w).map .fin := by
  rw [nearestC, C47_precisions] at hr
  obtain ⟨p, _, hp⟩ := firstOf_ok hr
  obtain ⟨h1, h2⟩ := roundNearestC_ok hp
  exact ⟨(C47_round_nearest h hA hS (hv p) h1 hf).1, (C47_round_nearest h hA hS (hw p) h2 hg).1⟩

theorem round_error (hp : 1 ≤ F.p) {z s : ℝ} (hs : F.Nearest z s) : |z - s| ≤ max (|z| / 2 ^ F.p) ((2 : ℝ) ^ F.emin / 2) := by
  by_cases hz : z = 0
  · rw [hz] at hs ⊢
    rw [hs.eq_of_rep rep_zero, sub_zero, abs_zero]
    exact le_max_of_le_left (by simp)
  have hz0 : 0 < |z| := abs_pos.mpr hz
  have hl1 : (2 : ℝ) ^ Int.log 2 |z| ≤ |z| := Int.zpow_log_le_self (by norm_num) hz0
  have hpos := two_zpow_pos (F.lastPlace z)
  have h1 := roundEven_half (z / (2 : ℝ) ^ F.lastPlace z)
  have h2 : |z - F.rne z| = |z / (2 : ℝ) ^ F.lastPlace z - roundEven (z / (2 : ℝ) ^ F.lastPlace z)| * (2 : ℝ) ^ F.lastPlace z := by
    unfold Fmt.rne
    rw [← abs_of_pos hpos, ← abs_mul, abs_of_pos hpos, sub_mul, div_mul_cancel₀ _ hpos.ne']
  have h3 : |z - s| ≤ 1 / 2 * (2 : ℝ) ^ F.lastPlace z := by
    refine le_trans (hs.2 _ (rne_rounds hp z).1) ?_
    rw [h2]
    exact mul_le_mul_of_nonneg_right h1 hpos.le
  rcases le_total (Int.log 2 |z| + 1 - F.p) F.emin with he | he
  · have hlp : F.lastPlace z = F.emin := max_eq_left he
    rw [hlp] at h3
    exact h3.trans (le_max_of_le_right (le_of_eq (by ring)))
  · have hlp : F.lastPlace z = Int.log 2 |z| + 1 - F.p := max_eq_right he
    refine h3.trans (le_max_of_le_left ?_)
    rw [hlp, le_div_iff₀ (by positivity), ← zpow_natCast, mul_assoc, ← zpow_add₀ (by norm_num),
      show Int.log 2 |z| + 1 - (F.p : ℤ) + F.p = Int.log 2 |z| + 1 by ring, zpow_add₀ (by norm_num)]
    linarith

/-- **C47.** The rounding to `n` components is right to `2^(-pn)` relative, or to half the smallest number. -/
theorem C47_greedy_error (hp : 1 ≤ F.p) {rn : ℝ → ℝ} (h : F.Rounds rn) : ∀ (n : ℕ) (v : ℝ), 1 ≤ n →
    |v - (greedy rn n v).sum| ≤ max (|v| / (2 ^ F.p) ^ n) ((2 : ℝ) ^ F.emin / 2) := by
  have hη : (0 : ℝ) ≤ (2 : ℝ) ^ F.emin / 2 := by have := two_zpow_pos F.emin; linarith
  have hp1 : (1 : ℝ) ≤ 2 ^ F.p := one_le_pow₀ (by norm_num)
  intro n
  induction n with
  | zero => intro v hn; omega
  | succ n ih =>
    intro v _
    have hr := round_error hp (h v)
    rcases Nat.eq_zero_or_pos n with rfl | hn
    · simpa [greedy] using hr
    · have := ih (v - rn v) hn
      simp only [greedy, List.sum_cons]
      rw [show v - (rn v + (greedy rn n (v - rn v)).sum) = v - rn v - (greedy rn n (v - rn v)).sum by ring]
      refine this.trans (max_le ?_ (le_max_right _ _))
      rcases le_max_iff.mp hr with hr | hr
      · refine le_max_of_le_left ?_
        rw [pow_succ', ← div_div]
        exact div_le_div_of_nonneg_right hr (by positivity)
      · refine le_max_of_le_right (le_trans ?_ hr)
        exact div_le_self (abs_nonneg _) (one_le_pow₀ hp1)

/-- `double` with rounding to even. -/
noncomputable def ieee : Machine := ⟨double.rne, (2 : ℝ) ^ (1024 : ℤ) - (2 : ℝ) ^ (971 : ℤ)⟩

theorem ieee_rounds : double.Rounds ieee.rn := rne_rounds (by norm_num [double])

/-- **C47.** An enclosure that is not bounded below is returned as `-inf` at the first precision, although the number is finite. -/
theorem C47_infinite_witness : intervals.Sound ∧ Encl (.ninf, .pinf) 1 ∧ nearest ieee intervals .double (fun _ => (.ninf, .pinf)) = .ok [.ninf] := by
  refine ⟨intervals_sound, ⟨trivial, trivial⟩, ?_⟩
  show nearestFrom _ 200 = _
  rw [C47_precisions, firstOf]
  have : roundNearest ieee intervals .double (.ninf, .pinf) 200 = .ok (some [.ninf]) := by
    simp only [roundNearest, roundNear, intervals, Machine.get]
    show Except.ok _ = _
    rw [if_pos]
    right
    intro hf
    exact hf .ninf (by simp)
  rw [this]

/-- Enclosures of 1 that get better. -/
noncomputable def improving (p : ℕ) : D × D := if p = 200 then (.fin 0, .fin 1) else (.fin 1, .fin 1)

theorem ieee_small {m : ℤ} (hm : |m| ≤ 1) : ieee.get (.fin m) = .fin m := by
  have hr : ieee.rn m = m := rounds_eq ieee_rounds ⟨m, 0, by simp, hm.trans (by norm_num [double]), by norm_num [double]⟩
  have hbig : (2 : ℝ) ≤ ieee.largest := by
    have h2 : (2 : ℝ) ^ (1024 : ℤ) = 2 * (2 : ℝ) ^ (1023 : ℤ) := by
      rw [show (1024 : ℤ) = 1 + 1023 by norm_num, zpow_add₀ (by norm_num)]; norm_num
    have h3 : (2 : ℝ) ^ (971 : ℤ) ≤ (2 : ℝ) ^ (1022 : ℤ) := zpow_le_zpow_right₀ (by norm_num) (by norm_num)
    have h4 : (2 : ℝ) ^ (1 : ℤ) ≤ (2 : ℝ) ^ (1022 : ℤ) := zpow_le_zpow_right₀ (by norm_num) (by norm_num)
    have h5 : (2 : ℝ) ^ (1022 : ℤ) ≤ (2 : ℝ) ^ (1023 : ℤ) := zpow_le_zpow_right₀ (by norm_num) (by norm_num)
    rw [zpow_one] at h4
    have key : ∀ a b c d : ℝ, a = 2 * b → c ≤ d → 2 ≤ d → d ≤ b → 2 ≤ a - c := by intros; linarith
    exact key _ _ _ _ h2 h3 h4 h5
  obtain ⟨h1, h2⟩ := abs_le.mp hm
  have h3 : (m : ℝ) ≤ 1 := by exact_mod_cast h2
  have h4 : (-1 : ℝ) ≤ m := by exact_mod_cast h1
  simp only [Machine.get, hr]
  rw [if_neg (by linarith), if_neg (by linarith)]

/-- At 200 bits the bounds round to different numbers, at 400 they are equal. -/
example : (∀ p, intervals.Mem (improving p) 1) ∧ roundNearest ieee intervals .double (improving 200) 200 = .ok none ∧
    nearest ieee intervals .double improving = .ok [.fin 1] := by
  have g0 := ieee_small (m := 0) (by norm_num)
  have g1 := ieee_small (m := 1) (by norm_num)
  push_cast at g0 g1
  have i200 : improving 200 = ((.fin 0, .fin 1) : D × D) := if_pos rfl
  have i400 : improving 400 = ((.fin 1, .fin 1) : D × D) := if_neg (by norm_num)
  have r200 : roundNearest ieee intervals .double (improving 200) 200 = .ok none := by
    rw [i200]
    simp only [roundNearest, roundNear, intervals, g0, g1]
    show Except.ok _ = _
    rw [if_neg]
    rintro (hc | hc)
    · exact absurd hc.1 (by simp [D.same])
    · exact hc fun a ha => by rw [List.mem_singleton.mp ha]; trivial
  have r400 : roundNearest ieee intervals .double (improving 400) 400 = .ok (some [.fin 1]) := by
    rw [i400]
    simp only [roundNearest, roundNear, intervals, g1]
    show Except.ok _ = _
    rw [if_pos (Or.inl ⟨rfl, trivial⟩)]
  refine ⟨fun p => ?_, r200, ?_⟩
  · show Encl (improving p) 1
    unfold improving
    by_cases hp : p = 200
    · rw [if_pos hp]; exact ⟨zero_le_one, le_rfl⟩
    · rw [if_neg hp]; exact ⟨le_rfl, le_rfl⟩
  · show nearestFrom _ 200 = _
    rw [C47_precisions, firstOf]
    simp only [r200]
    rw [firstOf]
    simp only [r400]

/-! ## Constants -/

variable {G : ArbFns A}

/-- **C47.** `nearest_pi`. -/
theorem C47_pi (h : F.Rounds M.rn) (hA : A.Sound) (hG : G.Sound) {S : Ty} (hS : 1 ≤ S.size) {e : List D} (hr : nearestPi M G S = .ok e)
    (hf : finAll e) : e = (greedy M.rn S.size Real.pi).map .fin :=
  (C47_nearest h hA hS hG.pi hr hf).1

theorem toUlong_of_pos {b : ℤ} (h1 : 0 < b) (h2 : b < 2 ^ 63) : (toUlong b : ℤ) = b ∧ toUlong b ≠ 0 := by
  unfold toUlong
  rw [Int.emod_eq_of_lt h1.le (by omega)]
  constructor <;> omega

/-- **C47.** `nearest_sqrt(a, b)` for a nonnegative `a` and a positive `b`. -/
theorem C47_sqrt (h : F.Rounds M.rn) (hA : A.Sound) (hG : G.Sound) {S : Ty} (hS : 1 ≤ S.size) {a b : ℤ} (ha : 0 ≤ a) (hb : 0 < b)
    (hb' : b < 2 ^ 63) {e : List D} (hr : nearestSqrt M G S a b = .ok e) (hf : finAll e) :
    e = (greedy M.rn S.size (Real.sqrt (a / b))).map .fin := by
  obtain ⟨h1, h2⟩ := toUlong_of_pos hb hb'
  refine (C47_nearest h hA hS (fun prec => ?_) hr hf).1
  have h3 : ((toUlong b : ℕ) : ℝ) = (b : ℝ) := by exact_mod_cast h1
  rw [← h3]
  exact hG.sqrt prec (div_nonneg (by exact_mod_cast ha) (by positivity)) (hG.divNat _ prec h2 (hG.ofInt a))

/-- **C47.** A negative `b` is taken for `2^64 + b`. -/
theorem C47_sqrt_negative (h : F.Rounds M.rn) (hA : A.Sound) (hG : G.Sound) {S : Ty} (hS : 1 ≤ S.size) {a b : ℤ} (ha : 0 ≤ a)
    (hb : -2 ^ 63 ≤ b) (hb' : b < 0) {e : List D} (hr : nearestSqrt M G S a b = .ok e) (hf : finAll e) :
    e = (greedy M.rn S.size (Real.sqrt (a / (2 ^ 64 + b)))).map .fin := by
  have h1 : (toUlong b : ℤ) = 2 ^ 64 + b := by
    unfold toUlong
    have : b % 2 ^ 64 = 2 ^ 64 + b := by omega
    omega
  have h2 : toUlong b ≠ 0 := by omega
  refine (C47_nearest h hA hS (fun prec => ?_) hr hf).1
  have h3 : ((toUlong b : ℕ) : ℝ) = 2 ^ 64 + (b : ℝ) := by exact_mod_cast h1
  rw [← h3]
  exact hG.sqrt prec (div_nonneg (by exact_mod_cast ha) (by positivity)) (hG.divNat _ prec h2 (hG.ofInt a))

/-! ## C48 -/

/-- **C48.** `nearest_twiddle(a, b)` is the rounding of `exp(2πi a/b)`, and `2*a` must not overflow. -/
theorem C48_twiddle (h : F.Rounds M.rn) (hA : A.Sound) (hG : G.Sound) {S : Ty} (hS : 1 ≤ S.size) {a b : ℤ} (hb : 0 < b) (hb' : b < 2 ^ 63)
    {r i : List D} (hr : nearestTwiddle M G S a b = .ok (r, i)) (hf : finAll r) (hg : finAll i) :
    r = (greedy M.rn S.size (Real.cos (2 * Real.pi * a / b))).map .fin ∧ i = (greedy M.rn S.size (Real.sin (2 * Real.pi * a / b))).map .fin := by
  obtain ⟨h1, h2⟩ := toUlong_of_pos hb hb'
  have h3 : ((toUlong b : ℕ) : ℝ) = (b : ℝ) := by exact_mod_cast h1
  rw [nearestTwiddle] at hr
  split at hr
  · have e : (2 * Real.pi * a / b : ℝ) = Real.pi * ((((2 * a : ℤ) / (toUlong b : ℚ)) : ℚ) : ℝ) := by
      push_cast
      rw [h3]; ring
    rw [e]
    exact C47_nearest_complex h hA hS (fun prec => (hG.cisPi _ prec).1) (fun prec => (hG.cisPi _ prec).2) hr hf hg
  · cases hr

/-- **C48.** Overflow of `2*a` and a zero denominator are undefined. -/
theorem C48_twiddle_ub {S : Ty} {a b : ℤ} (h : 2 * a < -2 ^ 63 ∨ 2 ^ 63 ≤ 2 * a ∨ b = 0) : nearestTwiddle M G S a b = .error .ub := by
  rw [nearestTwiddle, if_neg]
  rintro ⟨h1, h2, h3⟩
  rcases h with h | h | h
  · omega
  · omega
  · exact h3 (by rw [h]; rfl)

theorem res_bind_ok {α β : Type} {a : Res α} {f : α → Res β} {b : β} (h : (a >>= f) = .ok b) : ∃ x, a = .ok x ∧ f x = .ok b := by
  cases a with
  | error e => cases h
  | ok x => exact ⟨x, rfl, h⟩

theorem res_bind_err {α β : Type} {a : Res α} {f : α → Res β} {e : Err} (h : (a >>= f) = .error e) :
    a = .error e ∨ ∃ x, a = .ok x ∧ f x = .error e := by
  cases a with
  | error e' => left; injection h with h; rw [h]
  | ok x => exact Or.inr ⟨x, rfl, h⟩

theorem mapM_spec {α β : Type} {f : α → Res β} : ∀ {l : List α} {r : List β}, l.mapM f = .ok r → List.Forall₂ (fun a b => f a = .ok b) l r := by
  intro l
  induction l with
  | nil =>
    intro r h
    rw [List.mapM_nil] at h
    injection h with h
    subst h
    exact .nil
  | cons a l ih =>
    intro r h
    rw [List.mapM_cons] at h
    obtain ⟨b, hb, h⟩ := res_bind_ok h
    obtain ⟨bs, hbs, h⟩ := res_bind_ok h
    injection h with h
    subst h
    exact .cons hb (ih hbs)

theorem mapM_err {α β : Type} {f : α → Res β} {e : Err} : ∀ {l : List α}, l.mapM f = .error e → ∃ a ∈ l, f a = .error e := by
  intro l
  induction l with
  | nil => intro h; rw [List.mapM_nil] at h; cases h
  | cons a l ih =>
    intro h
    rw [List.mapM_cons] at h
    rcases res_bind_err h with h | ⟨b, _, h⟩
    · exact ⟨a, by simp, h⟩
    · rcases res_bind_err h with h | ⟨bs, _, h⟩
      · obtain ⟨c, hc, hf⟩ := ih h
        exact ⟨c, by simp [hc], hf⟩
      · cases h

/-! Nothing but running out of precision goes wrong in rounding. -/

theorem roundExp_err {n : ℕ} {c : D} {e : Err} : ∀ {prec : ℕ}, roundExp M A n c prec = .error e → e = .die := by
  intro prec
  induction hm : 10001 - prec using Nat.strong_induction_on generalizing prec with
  | _ k ih =>
    intro he
    rw [roundExp] at he
    split at he
    · rename_i hp
      split at he
      · cases he
      · exact ih (10001 - 2 * prec) (by omega) rfl he
    · injection he with he
      exact he.symm

theorem roundNear_err {S : Ty} {c : D} {e : Err} (h : roundNear M A S c = .error e) : e = .die := by
  cases S with
  | double => cases h
  | expansion n => exact roundExp_err (show roundExp M A n c (60 * n) = .error e from h)

theorem roundNearest_err {S : Ty} {c : A.Ball} {prec : ℕ} {e : Err} (h : roundNearest M A S c prec = .error e) : e = .die := by
  rw [roundNearest] at h
  rcases res_bind_err h with h | ⟨a, _, h⟩
  · exact roundNear_err h
  · rcases res_bind_err h with h | ⟨b, _, h⟩
    · exact roundNear_err h
    · cases h

theorem roundNearestC_err {S : Ty} {z : A.Ball × A.Ball} {prec : ℕ} {e : Err} (h : roundNearestC M A S z prec = .error e) : e = .die := by
  rw [roundNearestC] at h
  rcases res_bind_err h with h | ⟨r, _, h⟩
  · exact roundNearest_err h
  · cases r with
    | none => cases h
    | some r =>
      rcases res_bind_err h with h | ⟨i, _, h⟩
      · exact roundNearest_err h
      · cases i <;> cases h

theorem firstOf_err {R : Type} {round : ℕ → Res (Option R)} (hr : ∀ p e, round p = .error e → e = .die) {e : Err} :
    ∀ {ps : List ℕ}, firstOf round ps = .error e → e = .die := by
  intro ps
  induction ps with
  | nil => intro h; injection h with h; exact h.symm
  | cons p ps ih =>
    intro h
    rw [firstOf] at h
    split at h
    · rename_i e' he'
      injection h with h
      subst h
      exact hr p _ he'
    · cases h
    · exact ih h

/-- **C47.** `nearest` either returns or runs out of precision. -/
theorem C47_total {S : Ty} {f : ℕ → A.Ball} : (∃ e, nearest M A S f = .ok e) ∨ nearest M A S f = .error .die := by
  cases h : nearest M A S f with
  | ok e => exact Or.inl ⟨e, rfl⟩
  | error e =>
    rw [nearest, C47_precisions] at h
    rw [firstOf_err (fun p e h => roundNearest_err h) h]
    exact Or.inr rfl

theorem nearestTwiddle_err {S : Ty} {a b : ℤ} (h1 : -2 ^ 63 ≤ 2 * a) (h2 : 2 * a < 2 ^ 63) (h3 : toUlong b ≠ 0) {e : Err}
    (h : nearestTwiddle M G S a b = .error e) : e = .die := by
  rw [nearestTwiddle, if_pos ⟨h1, h2, h3⟩, nearestC, C47_precisions] at h
  exact firstOf_err (fun p e h => roundNearestC_err h) h

/-! The two factors of an index -/

theorem split_index {n n0 n1 j : ℕ} (h0 : 0 < n0) (h1 : n1 = (n + n0 - 1) / n0) (hj : j < n) :
    0 < n1 ∧ j / n1 < n0 ∧ j - j / n1 * n1 < n1 ∧ j / n1 * n1 + (j - j / n1 * n1) = j := by
  have hn1 : 0 < n1 := by
    rw [h1]
    exact Nat.div_pos (by omega) h0
  have hcover : n ≤ n0 * n1 := by
    have h2 := Nat.div_add_mod (n + n0 - 1) n0
    rw [← h1] at h2
    have h3 := Nat.mod_lt (n + n0 - 1) h0
    omega
  have hle : j / n1 * n1 ≤ j := Nat.div_mul_le_self j n1
  have hmod : j - j / n1 * n1 = j % n1 := by
    have := Nat.div_add_mod j n1
    rw [Nat.mul_comm] at this
    omega
  refine ⟨hn1, Nat.div_lt_of_lt_mul ?_, ?_, by omega⟩
  · rw [Nat.mul_comm]; omega
  · rw [hmod]; exact Nat.mod_lt _ hn1

/-- The factors that belong to entry `j`. -/
theorem factors_get {n n0 n1 j : ℕ} {b : ℤ} {prec : ℕ} (h0 : 0 < n0) (h1 : n1 = (n + n0 - 1) / n0) (hj : j < n) :
    (twiddleFactors G n0 n1 b prec)[j / n1]? = some (G.cisPi (2 * (j / n1 : ℕ) * n1 / (toUlong b : ℚ)) prec) ∧
    (twiddleFactors G n0 n1 b prec)[n0 + (j - j / n1 * n1)]? = some (G.cisPi (2 * (j - j / n1 * n1 : ℕ) / (toUlong b : ℚ)) prec) := by
  obtain ⟨s1, s2, s3, s4⟩ := split_index h0 h1 hj
  unfold twiddleFactors
  constructor
  · rw [List.getElem?_map, List.getElem?_range (by omega), Option.map_some, if_pos s2]
  · rw [List.getElem?_map, List.getElem?_range (by omega), Option.map_some, if_neg (by omega), Nat.add_sub_cancel_left]

/-- The fast way for entry `j`. -/
noncomputable def fastWay (M : Machine) (G : ArbFns A) (S : Ty) (n1 : ℕ) (b : ℤ) (prec j : ℕ) : Res (Option (List D × List D)) :=
  roundNearestC M A S (G.mulC (G.cisPi (2 * (j / n1 : ℕ) * n1 / (toUlong b : ℚ)) prec) (G.cisPi (2 * (j - j / n1 * n1 : ℕ) / (toUlong b : ℚ)) prec) prec) prec

theorem entry_eq {S : Ty} {n n0 n1 j : ℕ} {b : ℤ} {prec : ℕ} (h0 : 0 < n0) (h1 : n1 = (n + n0 - 1) / n0) (hj : j < n) :
    twiddleEntry M G S n0 n1 b prec (twiddleFactors G n0 n1 b prec) j = (do
      match ← fastWay M G S n1 b prec j with
      | some r => return (r, 0)
      | none => return (← nearestTwiddle M G S j b, 1)) := by
  obtain ⟨e1, e2⟩ := factors_get (G := G) (b := b) (prec := prec) h0 h1 hj
  simp only [twiddleEntry, e1, e2, fastWay]
  rfl

/-- The product of the two factors encloses the root of unity. -/
theorem fast_mem (hG : G.Sound) {n1 : ℕ} {b : ℤ} {prec j : ℕ} (hb : 0 < b) (hb' : b < 2 ^ 63) (hs : j / n1 * n1 + (j - j / n1 * n1) = j) :
    A.Mem (G.mulC (G.cisPi (2 * (j / n1 : ℕ) * n1 / (toUlong b : ℚ)) prec) (G.cisPi (2 * (j - j / n1 * n1 : ℕ) / (toUlong b : ℚ)) prec) prec).1
        (Real.cos (2 * Real.pi * j / b)) ∧
      A.Mem (G.mulC (G.cisPi (2 * (j / n1 : ℕ) * n1 / (toUlong b : ℚ)) prec) (G.cisPi (2 * (j - j / n1 * n1 : ℕ) / (toUlong b : ℚ)) prec) prec).2
        (Real.sin (2 * Real.pi * j / b)) := by
  obtain ⟨h1, h2⟩ := toUlong_of_pos hb hb'
  have h3 : ((toUlong b : ℕ) : ℝ) = (b : ℝ) := by exact_mod_cast h1
  have hb0 : (b : ℝ) ≠ 0 := by exact_mod_cast hb.ne'
  have e : (2 * Real.pi * j / b : ℝ) = Real.pi * ((2 * (j / n1 : ℕ) * n1 / (toUlong b : ℚ) : ℚ) : ℝ) +
      Real.pi * ((2 * (j - j / n1 * n1 : ℕ) / (toUlong b : ℚ) : ℚ) : ℝ) := by
    have hj : (j : ℝ) = (j / n1 : ℕ) * n1 + (j - j / n1 * n1 : ℕ) := by
      rw [← Nat.cast_mul, ← Nat.cast_add, hs]
    push_cast [Rat.cast_natCast]
    rw [h3, hj]
    field_simp
  obtain ⟨c1, s1⟩ := hG.cisPi (2 * (j / n1 : ℕ) * n1 / (toUlong b : ℚ)) prec
  obtain ⟨c2, s2⟩ := hG.cisPi (2 * (j - j / n1 * n1 : ℕ) / (toUlong b : ℚ)) prec
  have := hG.mulC prec c1 s1 c2 s2
  rw [e, Real.cos_add, Real.sin_add]
  refine ⟨this.1, ?_⟩
  have h5 := this.2
  rwa [add_comm] at h5

theorem ceil_sqrt_bounds (h : F.Rounds M.rn) (hp : 3 ≤ F.p) (he : F.emin ≤ -2) {n : ℕ} (h1 : 1 ≤ n) (h2 : n < 2 ^ 31) :
    0 < ⌈M.rn (Real.sqrt (M.rn n))⌉.toNat ∧
      ⌈M.rn (Real.sqrt (M.rn n))⌉.toNat + (n + ⌈M.rn (Real.sqrt (M.rn n))⌉.toNat - 1) / ⌈M.rn (Real.sqrt (M.rn n))⌉.toNat < 2 ^ 31 := by
  have pw : (8 : ℤ) ≤ 2 ^ F.p := by
    calc (8 : ℤ) = 2 ^ 3 := by norm_num
      _ ≤ 2 ^ F.p := pow_le_pow_right₀ (by norm_num) hp
  have r1 : F.Rep 1 := ⟨1, 0, by norm_num, by norm_num; omega, by omega⟩
  have r2 : F.Rep 2 := ⟨2, 0, by norm_num, by norm_num; omega, by omega⟩
  have r31 : F.Rep (2 ^ 31) := ⟨1, 31, by norm_num, by norm_num; omega, by omega⟩
  have r16 : F.Rep (2 ^ 16) := ⟨1, 16, by norm_num, by norm_num; omega, by omega⟩
  have r54 : F.Rep (5 / 4) := ⟨5, -2, by norm_num, by norm_num; omega, by omega⟩
  have hn1 : (1 : ℝ) ≤ n := by exact_mod_cast h1
  have hn2 : (n : ℝ) ≤ 2 ^ 31 := by exact_mod_cast h2.le
  have a1 : 1 ≤ M.rn n := (h n).ge r1 hn1
  have a2 : M.rn n ≤ 2 ^ 31 := (h n).le r31 hn2
  have b1 : 1 ≤ Real.sqrt (M.rn n) := Real.one_le_sqrt.mpr a1
  have b2 : Real.sqrt (M.rn n) ≤ 2 ^ 16 := by
    rw [Real.sqrt_le_left (by norm_num)]
    linarith [show ((2 : ℝ) ^ 16) ^ 2 = 2 ^ 32 by norm_num]
  have c1 : 1 ≤ M.rn (Real.sqrt (M.rn n)) := (h _).ge r1 b1
  have c2 : M.rn (Real.sqrt (M.rn n)) ≤ 2 ^ 16 := (h _).le r16 b2
  have d1 : 1 ≤ ⌈M.rn (Real.sqrt (M.rn n))⌉ := by
    have : (0 : ℤ) < ⌈M.rn (Real.sqrt (M.rn n))⌉ := Int.ceil_pos.mpr (by linarith)
    omega
  have d2 : ⌈M.rn (Real.sqrt (M.rn n))⌉ ≤ 2 ^ 16 := Int.ceil_le.mpr (by rw [Int.cast_pow, Int.cast_ofNat]; exact c2)
  have d3 : 2 ≤ n → 2 ≤ ⌈M.rn (Real.sqrt (M.rn n))⌉ := by
    intro h3
    have hn3 : (2 : ℝ) ≤ n := by exact_mod_cast h3
    have a3 : 2 ≤ M.rn n := (h n).ge r2 hn3
    have b3 : 5 / 4 ≤ Real.sqrt (M.rn n) := Real.le_sqrt_of_sq_le (by norm_num; linarith)
    have c3 : 5 / 4 ≤ M.rn (Real.sqrt (M.rn n)) := (h _).ge r54 b3
    have : (1 : ℤ) < ⌈M.rn (Real.sqrt (M.rn n))⌉ := Int.lt_ceil.mpr (by push_cast; linarith)
    omega
  generalize ⌈M.rn (Real.sqrt (M.rn n))⌉ = q at d1 d2 d3
  obtain ⟨k, rfl⟩ := Int.eq_ofNat_of_zero_le (show 0 ≤ q by omega)
  simp only [Int.toNat_natCast]
  have e1 : 1 ≤ k := by omega
  have e2 : k ≤ 2 ^ 16 := by omega
  refine ⟨e1, ?_⟩
  rcases Nat.lt_or_ge n 2 with h3 | h3
  · have : (n + k - 1) / k ≤ n + k - 1 := Nat.div_le_self _ _
    omega
  · have e3 : 2 ≤ k := by have := d3 h3; omega
    have : (n + k - 1) / k ≤ (n + k - 1) / 2 := Nat.div_le_div_left e3 (by norm_num)
    omega

/-- **C48.** For every number of entries below `2^31` and every positive `b`, `nearest_twiddles` never reads or writes outside its tables:
it returns, or runs out of precision. -/
theorem C48_defined (h : F.Rounds M.rn) (hp : 3 ≤ F.p) (he : F.emin ≤ -2) {S : Ty} {n prec : ℕ} {b : ℤ} (h1 : 1 ≤ n) (h2 : n < 2 ^ 31)
    (hb : 0 < b) (hb' : b < 2 ^ 63) :
    (∃ r, nearestTwiddles M G S n b prec = .ok r) ∨ nearestTwiddles M G S n b prec = .error .die := by
  obtain ⟨g1, g2⟩ := ceil_sqrt_bounds h hp he h1 h2
  have hu := (toUlong_of_pos hb hb').2
  simp only [nearestTwiddles]
  rw [if_neg g1.ne', if_neg (by
    rintro (hc | hc | hc)
    · omega
    · omega
    · exact hu hc)]
  generalize hn0 : ⌈M.rn (Real.sqrt (M.rn n))⌉.toNat = n0 at g1 g2
  cases hm : (List.range n).mapM (twiddleEntry M G S n0 ((n + n0 - 1) / n0) b prec (twiddleFactors G n0 ((n + n0 - 1) / n0) b prec)) with
  | ok zs => exact Or.inl ⟨_, rfl⟩
  | error e =>
    right
    obtain ⟨j, hj, hf⟩ := mapM_err hm
    rw [entry_eq g1 rfl (List.mem_range.mp hj)] at hf
    have hd : e = .die := by
      rcases res_bind_err hf with hf | ⟨o, _, hf⟩
      · exact roundNearestC_err hf
      · cases o with
        | some r => cases hf
        | none =>
          rcases res_bind_err hf with hf | ⟨r, _, hf⟩
          · have := List.mem_range.mp hj
            exact nearestTwiddle_err (by omega) (by omega) hu hf
          · cases hf
    rw [hd]
    rfl

/-- **C48.** Every entry with finite parts is the rounding of `exp(2πi j/b)`, and the count is the number of entries for which the fast way
failed. -/
theorem C48_twiddles (h : F.Rounds M.rn) (hA : A.Sound) (hG : G.Sound) {S : Ty} (hS : 1 ≤ S.size) {n prec : ℕ} {b : ℤ}
    (hb : 0 < b) (hb' : b < 2 ^ 63) {zs : List (List D × List D)} {k : ℕ} (hr : nearestTwiddles M G S n b prec = .ok (zs, k)) :
    zs.length = n ∧ (∀ j (hj : j < zs.length), finAll zs[j].1 → finAll zs[j].2 →
      zs[j].1 = (greedy M.rn S.size (Real.cos (2 * Real.pi * j / b))).map .fin ∧
      zs[j].2 = (greedy M.rn S.size (Real.sin (2 * Real.pi * j / b))).map .fin) ∧
    ∃ n1, 0 < n → 0 < n1 ∧ k = ((List.range n).filter fun j => decide (fastWay M G S n1 b prec j = .ok none)).length := by
  simp only [nearestTwiddles] at hr
  split at hr
  · cases hr
  rename_i hn0
  split at hr
  · cases hr
  generalize ⌈M.rn (Real.sqrt (M.rn n))⌉.toNat = n0 at hr hn0
  generalize hn1 : (n + n0 - 1) / n0 = n1 at hr
  obtain ⟨es, hes, hr⟩ := res_bind_ok hr
  injection hr with hr
  injection hr with hr1 hr2
  have hF := mapM_spec hes
  have hlen := hF.length_eq
  rw [List.length_range] at hlen
  -- what one entry is
  have entry : ∀ j, j < n → ∀ v, twiddleEntry M G S n0 n1 b prec (twiddleFactors G n0 n1 b prec) j = .ok v →
      (finAll v.1.1 → finAll v.1.2 → v.1.1 = (greedy M.rn S.size (Real.cos (2 * Real.pi * j / b))).map .fin ∧
        v.1.2 = (greedy M.rn S.size (Real.sin (2 * Real.pi * j / b))).map .fin) ∧
      v.2 = if fastWay M G S n1 b prec j = .ok none then 1 else 0 := by
    intro j hj v hv
    obtain ⟨_, _, _, s4⟩ := split_index (Nat.pos_of_ne_zero hn0) hn1.symm hj
    rw [entry_eq (Nat.pos_of_ne_zero hn0) hn1.symm hj] at hv
    obtain ⟨o, ho, hv⟩ := res_bind_ok hv
    cases o with
    | some r =>
      injection hv with hv
      subst hv
      obtain ⟨q1, q2⟩ := roundNearestC_ok (show roundNearestC M A S _ prec = .ok (some (r.1, r.2)) from ho)
      obtain ⟨m1, m2⟩ := fast_mem hG (prec := prec) hb hb' s4
      refine ⟨fun f1 f2 => ⟨(C47_round_nearest h hA hS m1 q1 f1).1, (C47_round_nearest h hA hS m2 q2 f2).1⟩, ?_⟩
      rw [ho, if_neg (by simp)]
    | none =>
      obtain ⟨r, hr, hv⟩ := res_bind_ok hv
      injection hv with hv
      subst hv
      refine ⟨fun f1 f2 => ?_, by rw [if_pos ho]⟩
      have := C48_twiddle h hA hG hS hb hb' (show nearestTwiddle M G S j b = .ok (r.1, r.2) from hr) f1 f2
      simpa using this
  refine ⟨by rw [← hr1, List.length_map, ← hlen], ?_, n1, ?_⟩
  · intro j hj
    subst hr1
    rw [List.length_map] at hj
    have hjn : j < n := by omega
    have := hF.get (i := j) (by rw [List.length_range]; exact hjn) hj
    simp only [List.get_eq_getElem, List.getElem_range] at this
    rw [List.getElem_map]
    exact (entry j hjn _ this).1
  · intro hpos
    refine ⟨(split_index (Nat.pos_of_ne_zero hn0) hn1.symm hpos).1, ?_⟩
    rw [← hr2]
    have key : ∀ (l : List ℕ) (es : List ((List D × List D) × ℕ)), (∀ j ∈ l, j < n) →
        List.Forall₂ (fun a b' => twiddleEntry M G S n0 n1 b prec (twiddleFactors G n0 n1 b prec) a = .ok b') l es →
        (es.map Prod.snd).sum = (l.filter fun j => decide (fastWay M G S n1 b prec j = .ok none)).length := by
      intro l es hl hF
      induction hF with
      | nil => rfl
      | cons ha _ ih =>
        rename_i a v l es _
        rw [List.map_cons, List.sum_cons, ih fun j hj => hl j (by simp [hj]), (entry a (hl a (by simp)) v ha).2, List.filter_cons]
        by_cases hc : fastWay M G S n1 b prec a = .ok none
        · rw [if_pos hc, if_pos (by simpa using hc), List.length_cons]; omega
        · rw [if_neg hc, if_neg (by simpa using hc), Nat.zero_add]
    exact key _ _ (fun j hj => List.mem_range.mp hj) hF

/-- **C48.** For an empty table the code divides by zero; from `2^31` entries on the loop counter overflows. -/
theorem C48_ub (h : F.Rounds M.rn) {S : Ty} {prec n : ℕ} {b : ℤ} (hn : n = 0 ∨ 2 ^ 31 ≤ n) : nearestTwiddles M G S n b prec = .error .ub := by
  simp only [nearestTwiddles]
  rcases hn with rfl | hn
  · rw [if_pos]
    rw [Nat.cast_zero, rounds_eq h rep_zero, Real.sqrt_zero, rounds_eq h rep_zero]
    simp
  · split
    · rfl
    · rw [if_pos (Or.inl hn)]

/-- Functions on intervals that keep the promises; products are only known for single points. -/
noncomputable def pointFns : ArbFns intervals where
  pi _ := ((.fin Real.pi, .fin Real.pi) : D × D)
  ofInt a := ((.fin a, .fin a) : D × D)
  divNat c k _ := match c with
    | (.fin x, .fin y) => ((.fin (x / k), .fin (y / k)) : D × D)
    | _ => ((.nan, .nan) : D × D)
  sqrt c _ := match c with
    | (.fin x, .fin y) => ((.fin (Real.sqrt x), .fin (Real.sqrt y)) : D × D)
    | _ => ((.nan, .nan) : D × D)
  cisPi t _ := (((.fin (Real.cos (Real.pi * t)), .fin (Real.cos (Real.pi * t))) : D × D), ((.fin (Real.sin (Real.pi * t)), .fin (Real.sin (Real.pi * t))) : D × D))
  mulC z w _ := match z, w with
    | ((.fin a, .fin a'), (.fin b, .fin b')), ((.fin c, .fin c'), (.fin d, .fin d')) =>
      if a = a' ∧ b = b' ∧ c = c' ∧ d = d' then
        (((.fin (a * c - b * d), .fin (a * c - b * d)) : D × D), ((.fin (a * d + b * c), .fin (a * d + b * c)) : D × D))
      else (((.nan, .nan) : D × D), ((.nan, .nan) : D × D))
    | _, _ => (((.nan, .nan) : D × D), ((.nan, .nan) : D × D))

theorem pointFns_sound : pointFns.Sound where
  pi _ := ⟨le_rfl, le_rfl⟩
  ofInt _ := ⟨le_rfl, le_rfl⟩
  cisPi _ _ := ⟨⟨le_rfl, le_rfl⟩, ⟨le_rfl, le_rfl⟩⟩
  divNat := by
    rintro ⟨a, b⟩ v k p hk ⟨h1, h2⟩
    cases a <;> cases b <;> first
      | exact ⟨trivial, trivial⟩
      | exact ⟨div_le_div_of_nonneg_right h1 (Nat.cast_nonneg k), div_le_div_of_nonneg_right h2 (Nat.cast_nonneg k)⟩
  sqrt := by
    rintro ⟨a, b⟩ v p hv ⟨h1, h2⟩
    cases a <;> cases b <;> first
      | exact ⟨trivial, trivial⟩
      | exact ⟨Real.sqrt_le_sqrt h1, Real.sqrt_le_sqrt h2⟩
  mulC := by
    rintro ⟨⟨z1, z2⟩, ⟨z3, z4⟩⟩ ⟨⟨w1, w2⟩, ⟨w3, w4⟩⟩ a b c d p h1 h2 h3 h4
    simp only [pointFns]
    split
    · rename_i x x' y y' u u' v v' e1 e2
      obtain ⟨⟨rfl, rfl⟩, ⟨rfl, rfl⟩⟩ : (z1 = .fin x ∧ z2 = .fin x') ∧ (z3 = .fin y ∧ z4 = .fin y') := by
        injection e1 with e1 e1'
        injection e1 with f1 f2
        injection e1' with f3 f4
        exact ⟨⟨f1, f2⟩, f3, f4⟩
      obtain ⟨⟨rfl, rfl⟩, ⟨rfl, rfl⟩⟩ : (w1 = .fin u ∧ w2 = .fin u') ∧ (w3 = .fin v ∧ w4 = .fin v') := by
        injection e2 with e2 e2'
        injection e2 with f1 f2
        injection e2' with f3 f4
        exact ⟨⟨f1, f2⟩, f3, f4⟩
      split
      · rename_i hc
        obtain ⟨rfl, rfl, rfl, rfl⟩ := hc
        obtain rfl : x = a := le_antisymm h1.1 h1.2
        obtain rfl : y = b := le_antisymm h2.1 h2.2
        obtain rfl : u = c := le_antisymm h3.1 h3.2
        obtain rfl : v = d := le_antisymm h4.1 h4.2
        exact ⟨⟨le_rfl, le_rfl⟩, ⟨le_rfl, le_rfl⟩⟩
      · exact ⟨⟨trivial, trivial⟩, ⟨trivial, trivial⟩⟩
    · exact ⟨⟨trivial, trivial⟩, ⟨trivial, trivial⟩⟩

theorem point_rounds {x : ℝ} {prec : ℕ} : ∃ e, roundNearest ieee intervals .double ((.fin x, .fin x) : D × D) prec = .ok (some e) := by
  refine ⟨[ieee.get (.fin x)], ?_⟩
  simp only [roundNearest, roundNear, intervals]
  show Except.ok _ = _
  rw [if_pos]
  by_cases hf : (ieee.get (.fin x)).isFin
  · obtain ⟨d, hd⟩ := isFin_iff.mp hf
    rw [hd]
    exact Or.inl ⟨rfl, trivial⟩
  · exact Or.inr fun h => hf (h _ (by simp))

/-- Five of the eighth roots of unity are found without the slow way. -/
example : ∃ zs, nearestTwiddles ieee pointFns .double 5 8 100 = .ok (zs, 0) ∧ zs.length = 5 := by
  have fast : ∀ n1 j, ∃ r, fastWay ieee pointFns .double n1 8 100 j = .ok (some r) := by
    intro n1 j
    simp only [fastWay, pointFns, and_self, if_true]
    obtain ⟨r, hr⟩ := point_rounds (prec := 100)
      (x := Real.cos (Real.pi * ((2 * (j / n1 : ℕ) * n1 / (toUlong 8 : ℚ) : ℚ) : ℝ)) * Real.cos (Real.pi * ((2 * (j - j / n1 * n1 : ℕ) / (toUlong 8 : ℚ) : ℚ) : ℝ)) -
        Real.sin (Real.pi * ((2 * (j / n1 : ℕ) * n1 / (toUlong 8 : ℚ) : ℚ) : ℝ)) * Real.sin (Real.pi * ((2 * (j - j / n1 * n1 : ℕ) / (toUlong 8 : ℚ) : ℚ) : ℝ)))
    obtain ⟨i, hi⟩ := point_rounds (prec := 100)
      (x := Real.cos (Real.pi * ((2 * (j / n1 : ℕ) * n1 / (toUlong 8 : ℚ) : ℚ) : ℝ)) * Real.sin (Real.pi * ((2 * (j - j / n1 * n1 : ℕ) / (toUlong 8 : ℚ) : ℚ) : ℝ)) +
        Real.sin (Real.pi * ((2 * (j / n1 : ℕ) * n1 / (toUlong 8 : ℚ) : ℚ) : ℝ)) * Real.cos (Real.pi * ((2 * (j - j / n1 * n1 : ℕ) / (toUlong 8 : ℚ) : ℚ) : ℝ)))
    refine ⟨(r, i), ?_⟩
    simp only [roundNearestC]
    erw [hr]
    simp only [bind, Except.bind]
    erw [hi]
    rfl
  have hd := C48_defined (G := pointFns) ieee_rounds (by norm_num [double]) (by norm_num [double]) (S := .double) (n := 5) (prec := 100) (b := 8)
    (by norm_num) (by norm_num) (by norm_num) (by norm_num)
  rcases hd with ⟨⟨zs, k⟩, hr⟩ | hd
  · obtain ⟨h1, _, n1, h3⟩ := C48_twiddles ieee_rounds intervals_sound pointFns_sound (by norm_num [Ty.size]) (by norm_num) (by norm_num) hr
    refine ⟨zs, ?_, h1⟩
    rw [hr, (h3 (by norm_num)).2, List.filter_eq_nil_iff.mpr, List.length_nil]
    intro j _
    obtain ⟨r, hr⟩ := fast n1 j
    simp [hr]
  · exfalso
    obtain ⟨g1, g2⟩ := ceil_sqrt_bounds ieee_rounds (by norm_num [double]) (by norm_num [double]) (n := 5) (by norm_num) (by norm_num)
    simp only [nearestTwiddles] at hd
    rw [if_neg g1.ne', if_neg (by
      rintro (hc | hc | hc)
      · omega
      · omega
      · exact absurd hc (by decide))] at hd
    generalize ⌈ieee.rn (Real.sqrt (ieee.rn (5 : ℕ)))⌉.toNat = n0 at hd g1
    rcases res_bind_err hd with hd | ⟨_, _, hd⟩
    · obtain ⟨j, hj, hf⟩ := mapM_err hd
      rw [entry_eq g1 rfl (List.mem_range.mp hj)] at hf
      obtain ⟨r, hr⟩ := fast ((5 + n0 - 1) / n0) j
      rw [hr] at hf
      cases hf
    · cases hd

end Mandelbrot.Float
