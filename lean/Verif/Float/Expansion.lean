import Verif.Float.Format
import Verif.Basic
import Mathlib.Algebra.BigOperators.Intervals

/-!
# Model of expansion arithmetic: /repo/codelets.cc 188-305, /repo/expansion.h, /repo/expansion.cc

The generated code is evaluated directly on numbers.  A value is `none` where the generator has the literal `0`, on which it
branches.  `rn` is the rounding of the machine.
-/

namespace Mandelbrot.Float

/-- A value during generation: the literal zero or a number. -/
abbrev Sc := Option ℝ

/-- Its numerical value. -/
def Sc.val (a : Sc) : ℝ := a.getD 0

/-- /repo/codelets.cc 193-200 `two_sum`. -/
def twoSum (rn : ℝ → ℝ) (a b : Sc) : Sc × Sc :=
  match a, b with
  | none, b => (b, none)
  | some a, none => (some a, none)
  | some a, some b =>
    let x := rn (a + b)
    let v := rn (x - a)
    let y := rn (rn (a - rn (x - v)) + rn (b - v))
    (some x, some y)

/-- /repo/codelets.cc 203-207 `two_prod`: one rounding for the fused multiply-add. -/
def twoProd (rn : ℝ → ℝ) (a b : ℝ) : ℝ × ℝ :=
  let x := rn (a * b)
  let y := rn (a * b + -x)
  (x, y)

/-- /repo/codelets.cc 222-224: one number passes through the state and is added to its end. -/
def pass (rn : ℝ → ℝ) : Sc → List Sc → List Sc
  | t, [] => [t]
  | t, s :: l => (twoSum rn t s).1 :: pass rn (twoSum rn t s).2 l

/-- /repo/codelets.cc 214-218: the two operands alternate. -/
def interleave : List ℝ → List ℝ → List Sc
  | a :: x, b :: y => some a :: some b :: interleave x y
  | _, _ => []

/-- /repo/codelets.cc 219-225: the final state. -/
def sumState (rn : ℝ → ℝ) (x y : List ℝ) : List Sc := (interleave x y).foldl (fun st t => pass rn t st) []

/-- /repo/codelets.cc 211-228 `collange_add`; the values of the result. -/
def collangeAdd (rn : ℝ → ℝ) (x y : List ℝ) : Res (List ℝ) := do
  slowAssert (x.length = y.length)
  let state := sumState rn x y
  slowAssert (state.length = 2 * x.length)
  return (state.take x.length).map Sc.val

/-- /repo/codelets.cc 273-280: `-x`. -/
def negate (x : List ℝ) : List ℝ := x.map fun a => -a

/-- /repo/codelets.cc 231-233 `collange_sub`. -/
def collangeSub (rn : ℝ → ℝ) (x y : List ℝ) : Res (List ℝ) := collangeAdd rn x (negate y)

/-- /repo/codelets.cc 252-253, 258-259: one `two_sum` for every place. -/
def addPlaces (rn : ℝ → ℝ) : List Sc → List Sc → List Sc × List Sc
  | s :: l, e :: m => ((twoSum rn s e).1 :: (addPlaces rn l m).1, (twoSum rn s e).2 :: (addPlaces rn l m).2)
  | _, _ => ([], [])

/-- /repo/codelets.cc 251-256, 257-262: `while (any(e))`, at most `fuel` rounds; the last list collects what `pop_back` drops. -/
def drain (rn : ℝ → ℝ) : ℕ → List Sc → List Sc → List Sc → List Sc × List Sc × List Sc
  | 0, s, e, out => (s, e, out)
  | fuel + 1, s, e, out =>
    if e.any Option.isSome then
      let r := addPlaces rn s e
      drain rn fuel r.1 (none :: r.2.dropLast) (out ++ r.2.getLast?.toList)
    else (s, e, out)

/-- /repo/codelets.cc 242-263: one round of the outer loop: the state, the new component and what was dropped. -/
def mulRound (rn : ℝ → ℝ) (x : List ℝ) (yi : ℝ) (s : List Sc) : List Sc × Sc × List Sc :=
  let pe := x.map fun xj => twoProd rn xj yi
  let r := addPlaces rn s (pe.map fun q => some q.1)
  let s := r.1.tail ++ [none]
  let d1 := drain rn x.length s (pe.map fun q => some q.2) []
  let d2 := drain rn x.length d1.1 r.2 []
  (d2.1, r.1.headD none, d1.2.2 ++ d2.2.2)

/-- /repo/codelets.cc 242: the outer loop. -/
def mulRounds (rn : ℝ → ℝ) (x : List ℝ) : List ℝ → List Sc → List Sc × List Sc × List Sc
  | [], s => (s, [], [])
  | yi :: y, s =>
    let r := mulRound rn x yi s
    let q := mulRounds rn x y r.1
    (q.1, r.2.1 :: q.2.1, r.2.2 ++ q.2.2)

/-- /repo/codelets.cc 237-266 `collange_mul`. -/
def collangeMul (rn : ℝ → ℝ) (x y : List ℝ) : Res (List ℝ) := do
  slowAssert (x.length = y.length)
  let r := mulRounds rn x y (List.replicate x.length none)
  slowAssert (x.length = r.2.1.length)
  return r.2.1.map Sc.val

/-- /repo/expansion.cc 19-24 `sign`. -/
noncomputable def sign : List ℝ → ℤ
  | [] => 0
  | a :: x => if a ≠ 0 then (if 0 < a then 1 else -1) else sign x

/-- /repo/expansion.cc 26-32 `abs`; the products are exact. -/
noncomputable def absExp (x : List ℝ) : List ℝ := x.map fun a => (sign x : ℝ) * a

/-- /repo/expansion.h 92-97 `operator bool`. -/
noncomputable def toBool (x : List ℝ) : Bool := x.any fun a => decide (a ≠ 0)

/-- /repo/expansion.h 99-104 `operator==`, for operands of the same number of components. -/
noncomputable def eqExp (x y : List ℝ) : Bool := decide (x = y)

/-- /repo/expansion.h 72-79 `operator==(int)`. -/
noncomputable def eqInt (x : List ℝ) (a : ℤ) : Bool := decide (x.headD 0 = a) && x.tail.all fun b => decide (b = 0)

/-- /repo/expansion.h 81-86 `operator double`: the sum from the last component. -/
def toDouble (rn : ℝ → ℝ) : List ℝ → ℝ
  | [] => 0
  | [a] => a
  | a :: b :: x => rn (toDouble rn (b :: x) + a)

/-- /repo/expansion.h 69 `ldexp`; the library function rounds once. -/
noncomputable def ldexpExp (rn : ℝ → ℝ) (x : List ℝ) (e : ℤ) : List ℝ := x.map fun a => rn (a * (2 : ℝ) ^ e)

/-- /repo/expansion.h 67 `half`, /repo/arith.h 15: `0.5 * x` for every component. -/
noncomputable def halfExp (rn : ℝ → ℝ) (x : List ℝ) : List ℝ := x.map fun a => rn (1 / 2 * a)

/-- /repo/expansion.h 68 `twice`, /repo/arith.h 16: `x + x` for every component. -/
def twiceExp (rn : ℝ → ℝ) (x : List ℝ) : List ℝ := x.map fun a => rn (a + a)

/-- /repo/expansion.h 49 `Expansion(int64_t)`: converting a `double` outside the range of `int64_t` is undefined, and so is overflow
of the difference.  `x0` is an integer, so the conversion is written as the floor. -/
noncomputable def ofInt64 (rn : ℝ → ℝ) (n : ℕ) (a : ℤ) : Res (List ℝ) :=
  let x0 := rn a
  if -2 ^ 63 ≤ ⌊x0⌋ ∧ ⌊x0⌋ < 2 ^ 63 then
    let d := a - ⌊x0⌋
    if -2 ^ 63 ≤ d ∧ d < 2 ^ 63 then .ok (x0 :: rn d :: List.replicate (n - 2) 0) else .error .ub
  else .error .ub

/-! ## `two_sum` and `two_prod` -/

variable {F : Fmt} {rn : ℝ → ℝ}

/-- A value is a number of the format. -/
def Sc.Ok (F : Fmt) (a : Sc) : Prop := F.Rep a.val

theorem Sc.ok_none : Sc.Ok F none := rep_zero

theorem rounds_eq (h : F.Rounds rn) {z : ℝ} (hz : F.Rep z) : rn z = z := (h z).eq_of_rep hz

theorem twoSum_some (h : F.Rounds rn) {a b : ℝ} (ha : F.Rep a) (hb : F.Rep b) :
    twoSum rn (some a) (some b) = (some (rn (a + b)), some (a + b - rn (a + b))) := by
  have hs := h (a + b)
  have herr := add_error ha hb hs
  simp only [twoSum]
  congr 2
  set s := rn (a + b) with hsdef
  rcases le_or_gt |b| |a| with hab | hab
  · have h1 := fast ha hb hs hab
    rw [rounds_eq h h1, show s - (s - a) = a by ring, rounds_eq h ha, show a - a = (0 : ℝ) by ring, rounds_eq h rep_zero, zero_add,
      show b - (s - a) = a + b - s by ring, rounds_eq h herr, rounds_eq h herr]
  · rcases lt_or_ge |s| |a| with hsa | hsa
    · have hx := small ha hb hs hab hsa
      have hse : s = a + b := hs.eq_of_rep hx
      rw [hse, show a + b - a = b by ring, rounds_eq h hb, show a + b - b = a by ring, rounds_eq h ha]
      simp [rounds_eq h rep_zero]
    · have hv := h (s - a)
      set v := rn (s - a) with hvdef
      have hv' : F.Nearest (s + -a) v := by rw [← sub_eq_add_neg]; exact hv
      have h1 := fast hs.1 ha.neg hv' (by rwa [abs_neg])
      have h1' : F.Rep (s - v) := by have := h1.neg; rwa [show -(v - s) = s - v by ring] at this
      have h2 := add_error hs.1 ha.neg hv'
      have h2' : F.Rep (a - (s - v)) := by have := h2.neg; rwa [show -(s + -a - v) = a - (s - v) by ring] at this
      have h3 := slow ha hb hs hv hab
      rw [rounds_eq h h1', rounds_eq h h2', rounds_eq h h3, show a - (s - v) + (b - v) = a + b - s by ring, rounds_eq h herr]

theorem twoSum_val (h : F.Rounds rn) {a b : Sc} (ha : a.Ok F) (hb : b.Ok F) :
    (twoSum rn a b).1.val = rn (a.val + b.val) ∧ (twoSum rn a b).2.val = a.val + b.val - rn (a.val + b.val) := by
  cases a with
  | none =>
    have : rn (Sc.val none + b.val) = b.val := by
      rw [show Sc.val none = 0 from rfl, zero_add]; exact rounds_eq h hb
    rw [this]
    exact ⟨rfl, by simp [twoSum, Sc.val]⟩
  | some a =>
    cases b with
    | none =>
      have : rn (Sc.val (some a) + Sc.val none) = a := by
        rw [show Sc.val none = 0 from rfl, add_zero]; exact rounds_eq h ha
      rw [this]
      exact ⟨rfl, by simp [twoSum, Sc.val]⟩
    | some b =>
      rw [twoSum_some (a := a) (b := b) h ha hb]
      exact ⟨rfl, rfl⟩

theorem twoSum_ok (h : F.Rounds rn) {a b : Sc} (ha : a.Ok F) (hb : b.Ok F) : (twoSum rn a b).1.Ok F ∧ (twoSum rn a b).2.Ok F := by
  obtain ⟨h1, h2⟩ := twoSum_val h ha hb
  unfold Sc.Ok
  rw [h1, h2]
  exact ⟨(h _).1, add_error ha hb (h _)⟩

theorem twoSum_sum (h : F.Rounds rn) {a b : Sc} (ha : a.Ok F) (hb : b.Ok F) :
    (twoSum rn a b).1.val + (twoSum rn a b).2.val = a.val + b.val := by
  obtain ⟨h1, h2⟩ := twoSum_val h ha hb
  rw [h1, h2]; ring

/-! ## Sums -/

/-- The exact sum of values. -/
def total (l : List Sc) : ℝ := (l.map Sc.val).sum

@[simp] theorem total_nil : total [] = 0 := rfl
@[simp] theorem total_cons (a : Sc) (l : List Sc) : total (a :: l) = a.val + total l := rfl
@[simp] theorem total_append (l m : List Sc) : total (l ++ m) = total l + total m := by simp [total]

theorem pass_spec (h : F.Rounds rn) : ∀ (l : List Sc) (t : Sc), t.Ok F → (∀ a ∈ l, a.Ok F) →
    (∀ a ∈ pass rn t l, a.Ok F) ∧ total (pass rn t l) = t.val + total l ∧ (pass rn t l).length = l.length + 1 := by
  intro l
  induction l with
  | nil => intro t ht _; exact ⟨by simpa [pass] using ht, rfl, rfl⟩
  | cons s l ih =>
    intro t ht hl
    have hs := hl s (by simp)
    obtain ⟨o1, o2⟩ := twoSum_ok h ht hs
    obtain ⟨h1, h2, h3⟩ := ih _ o2 fun a ha => hl a (by simp [ha])
    refine ⟨?_, ?_, ?_⟩
    · intro a ha
      simp only [pass, List.mem_cons] at ha
      rcases ha with rfl | ha
      · exact o1
      · exact h1 a ha
    · simp only [pass, total_cons, h2]
      have := twoSum_sum h ht hs
      linarith
    · simp only [pass, List.length_cons, h3]

theorem fold_pass (h : F.Rounds rn) : ∀ (l st : List Sc), (∀ a ∈ l, a.Ok F) → (∀ a ∈ st, a.Ok F) →
    (∀ a ∈ l.foldl (fun st t => pass rn t st) st, a.Ok F) ∧
      total (l.foldl (fun st t => pass rn t st) st) = total l + total st ∧
      (l.foldl (fun st t => pass rn t st) st).length = l.length + st.length := by
  intro l
  induction l with
  | nil => intro st _ hs; exact ⟨hs, by simp, by simp⟩
  | cons t l ih =>
    intro st hl hs
    obtain ⟨p1, p2, p3⟩ := pass_spec h st t (hl t (by simp)) hs
    obtain ⟨h1, h2, h3⟩ := ih (pass rn t st) (fun a ha => hl a (by simp [ha])) p1
    refine ⟨h1, ?_, ?_⟩
    · simp only [List.foldl_cons, h2, p2, total_cons]; ring
    · simp only [List.foldl_cons, h3, p3, List.length_cons]; omega

theorem interleave_spec : ∀ (x y : List ℝ), x.length = y.length →
    total (interleave x y) = x.sum + y.sum ∧ (interleave x y).length = 2 * x.length ∧
      ∀ a ∈ interleave x y, ∃ r, a = some r ∧ (r ∈ x ∨ r ∈ y) := by
  intro x
  induction x with
  | nil => intro y hy; cases y <;> simp_all [interleave]
  | cons a x ih =>
    intro y hy
    cases y with
    | nil => simp at hy
    | cons b y =>
      obtain ⟨h1, h2, h3⟩ := ih y (by simpa using hy)
      refine ⟨?_, ?_, ?_⟩
      · simp only [interleave, total_cons, h1, List.sum_cons, Sc.val, Option.getD_some]; ring
      · simp only [interleave, List.length_cons, h2]; omega
      · intro c hc
        simp only [interleave, List.mem_cons] at hc
        rcases hc with rfl | rfl | hc
        · exact ⟨a, rfl, by simp⟩
        · exact ⟨b, rfl, by simp⟩
        · obtain ⟨r, e, hr⟩ := h3 c hc
          exact ⟨r, e, by simp only [List.mem_cons]; tauto⟩

theorem sumState_spec (h : F.Rounds rn) {x y : List ℝ} (hl : x.length = y.length) (hx : ∀ a ∈ x, F.Rep a) (hy : ∀ a ∈ y, F.Rep a) :
    (∀ a ∈ sumState rn x y, a.Ok F) ∧ total (sumState rn x y) = x.sum + y.sum ∧ (sumState rn x y).length = 2 * x.length := by
  obtain ⟨i1, i2, i3⟩ := interleave_spec x y hl
  obtain ⟨h1, h2, h3⟩ := fold_pass h (interleave x y) [] (fun a ha => by
    obtain ⟨r, rfl, hr⟩ := i3 a ha
    exact hr.elim (hx r) (hy r)) (by simp)
  exact ⟨h1, by rw [sumState, h2, i1]; simp, by rw [sumState, h3, i2]; simp⟩

/-! ## Relative errors -/

/-- The error of rounding a multiple of the smallest number is at most half a unit in the last place. -/
theorem rel_error (hp : 1 ≤ F.p) {z s : ℝ} (hm : Mult F.emin z) (hs : F.Nearest z s) : |z - s| ≤ |z| / 2 ^ F.p := by
  by_cases hz : z = 0
  · rw [hz] at hs ⊢
    rw [hs.eq_of_rep rep_zero]; simp
  have hz0 : 0 < |z| := abs_pos.mpr hz
  have hl1 : (2 : ℝ) ^ Int.log 2 |z| ≤ |z| := Int.zpow_log_le_self (by norm_num) hz0
  have hl2 : |z| < (2 : ℝ) ^ (Int.log 2 |z| + 1) := Int.lt_zpow_succ_log_self (by norm_num) _
  by_cases he : Int.log 2 |z| + 1 - F.p ≤ F.emin
  · have : F.Rep z := by
      refine rep_of_mult hm le_rfl (hl2.le.trans ?_)
      rw [← zpow_natCast, ← zpow_add₀ (by norm_num)]
      exact zpow_le_zpow_right₀ (by norm_num) (by omega)
    rw [hs.eq_of_rep this, sub_self, abs_zero]
    positivity
  · have hlp : F.lastPlace z = Int.log 2 |z| + 1 - F.p := max_eq_right (by omega)
    refine le_trans (hs.2 _ (rne_rounds hp z).1) ?_
    have hpos := two_zpow_pos (F.lastPlace z)
    have h1 := roundEven_half (z / (2 : ℝ) ^ F.lastPlace z)
    have h2 : |z - F.rne z| = |z / (2 : ℝ) ^ F.lastPlace z - roundEven (z / (2 : ℝ) ^ F.lastPlace z)| * (2 : ℝ) ^ F.lastPlace z := by
      unfold Fmt.rne
      rw [← abs_of_pos hpos, ← abs_mul, abs_of_pos hpos, sub_mul, div_mul_cancel₀ _ hpos.ne']
    rw [h2, le_div_iff₀ (by positivity)]
    calc |z / (2 : ℝ) ^ F.lastPlace z - roundEven (z / (2 : ℝ) ^ F.lastPlace z)| * (2 : ℝ) ^ F.lastPlace z * 2 ^ F.p
        ≤ 1 / 2 * (2 : ℝ) ^ F.lastPlace z * 2 ^ F.p := by
          refine mul_le_mul_of_nonneg_right (mul_le_mul_of_nonneg_right h1 hpos.le) (by positivity)
      _ = (2 : ℝ) ^ Int.log 2 |z| := by
          rw [hlp, ← zpow_natCast, mul_assoc, ← zpow_add₀ (by norm_num), show Int.log 2 |z| + 1 - (F.p : ℤ) + F.p = Int.log 2 |z| + 1 by ring,
            zpow_add₀ (by norm_num)]
          ring
      _ ≤ |z| := hl1

/-- Half a unit in the last place of one. -/
noncomputable def Fmt.u (F : Fmt) : ℝ := 1 / 2 ^ F.p

theorem u_pos : 0 < F.u := by unfold Fmt.u; positivity

theorem twoSum_bounds (hp : 1 ≤ F.p) (h : F.Rounds rn) {a b : Sc} (ha : a.Ok F) (hb : b.Ok F) :
    |(twoSum rn a b).1.val| ≤ (1 + F.u) * (|a.val| + |b.val|) ∧ |(twoSum rn a b).2.val| ≤ F.u * (|a.val| + |b.val|) := by
  obtain ⟨h1, h2⟩ := twoSum_val h ha hb
  have he := rel_error hp (Mult.add ha.multMin hb.multMin) (h (a.val + b.val))
  have he' : |a.val + b.val - rn (a.val + b.val)| ≤ F.u * |a.val + b.val| := by
    unfold Fmt.u; rw [one_div, inv_mul_eq_div]; exact he
  have ht := abs_add_le a.val b.val
  have hu := u_pos (F := F)
  have h3 : F.u * |a.val + b.val| ≤ F.u * (|a.val| + |b.val|) := mul_le_mul_of_nonneg_left ht hu.le
  rw [h1, h2]
  refine ⟨?_, he'.trans h3⟩
  have h4 : |rn (a.val + b.val)| ≤ |a.val + b.val| + |a.val + b.val - rn (a.val + b.val)| := by
    calc |rn (a.val + b.val)| = |(a.val + b.val) - (a.val + b.val - rn (a.val + b.val))| := by congr 1; ring
      _ ≤ _ := abs_sub _ _
  linarith

/-- One number passes through a state whose places fall off geometrically. -/
theorem pass_bounds (hp : 1 ≤ F.p) (h : F.Rounds rn) {A B κ : ℝ} (hA : 0 ≤ A) (hκ : A + B ≤ κ * B) (hB : 0 ≤ B) (hκ0 : 0 ≤ κ) :
    ∀ (l : List Sc) (t : Sc) (k : ℕ), t.Ok F → (∀ a ∈ l, a.Ok F) → |t.val| ≤ B * (κ * F.u) ^ k →
      (∀ i (hi : i < l.length), |(l[i]).val| ≤ A * (κ * F.u) ^ (k + i)) →
      ∀ i (hi : i < (pass rn t l).length), |((pass rn t l)[i]).val| ≤ (1 + F.u) * (A + B) * (κ * F.u) ^ (k + i) := by
  have hu := u_pos (F := F)
  have hκu : 0 ≤ κ * F.u := by positivity
  intro l
  induction l with
  | nil =>
    intro t k _ _ ht _ i hi
    simp only [pass, List.length_cons, List.length_nil] at hi
    have : i = 0 := by omega
    subst this
    simp only [pass, List.getElem_cons_zero, Nat.add_zero]
    refine ht.trans (mul_le_mul_of_nonneg_right ?_ (by positivity))
    nlinarith
  | cons s l ih =>
    intro t k ht hl hb hs i hi
    have hso := hl s (by simp)
    have hs0 := hs 0 (by simp)
    simp only [List.getElem_cons_zero, Nat.add_zero] at hs0
    obtain ⟨b1, b2⟩ := twoSum_bounds hp h ht hso
    have hsum : |t.val| + |s.val| ≤ (A + B) * (κ * F.u) ^ k := by rw [add_mul]; linarith
    cases i with
    | zero =>
      simp only [pass, List.getElem_cons_zero, Nat.add_zero]
      refine b1.trans ?_
      rw [mul_assoc]
      exact mul_le_mul_of_nonneg_left hsum (by linarith)
    | succ i =>
      simp only [pass, List.getElem_cons_succ]
      have hlen : i < (pass rn (twoSum rn t s).2 l).length := by simpa [pass] using hi
      have := ih (twoSum rn t s).2 (k + 1) (twoSum_ok h ht hso).2 (fun a ha => hl a (by simp [ha])) (by
        refine b2.trans ((mul_le_mul_of_nonneg_left hsum hu.le).trans ?_)
        rw [pow_succ, ← mul_assoc, ← mul_assoc]
        have hpk : 0 ≤ (κ * F.u) ^ k := by positivity
        calc F.u * (A + B) * (κ * F.u) ^ k ≤ F.u * (κ * B) * (κ * F.u) ^ k :=
              mul_le_mul_of_nonneg_right (mul_le_mul_of_nonneg_left hκ hu.le) hpk
          _ = B * (κ * F.u) ^ k * (κ * F.u) := by ring) (fun j hj => by
        have := hs (j + 1) (by simpa using hj)
        simp only [List.getElem_cons_succ] at this
        rwa [show k + 1 + j = k + (j + 1) by omega]) i hlen
      rwa [show k + 1 + i = k + (i + 1) by omega] at this

/-- The bound for `m` numbers of size `B`: the place `i` of the state is at most `m (1 + u)^m B (κ u)^i`. -/
theorem fold_bounds (hp : 1 ≤ F.p) (h : F.Rounds rn) {B κ : ℝ} (hB : 0 ≤ B) (N : ℕ) (hκ : 1 + N * (1 + F.u) ^ N ≤ κ) :
    ∀ (l st : List Sc) (m : ℕ), l.length + m ≤ N → (∀ a ∈ l, a.Ok F) → (∀ a ∈ st, a.Ok F) → (∀ a ∈ l, |a.val| ≤ B) →
      (∀ i (hi : i < st.length), |(st[i]).val| ≤ m * (1 + F.u) ^ m * B * (κ * F.u) ^ i) →
      ∀ i (hi : i < (l.foldl (fun st t => pass rn t st) st).length),
        |((l.foldl (fun st t => pass rn t st) st)[i]).val| ≤ N * (1 + F.u) ^ N * B * (κ * F.u) ^ i := by
  have hu := u_pos (F := F)
  have hmono : ∀ m : ℕ, m ≤ N → (m : ℝ) * (1 + F.u) ^ m ≤ N * (1 + F.u) ^ N := fun m hm =>
    mul_le_mul (by exact_mod_cast hm) (pow_le_pow_right₀ (by linarith) hm) (by positivity) (by positivity)
  have hκ0 : 0 ≤ κ := le_trans (by positivity) hκ
  intro l
  induction l with
  | nil =>
    intro st m hm _ _ _ hb i hi
    refine (hb i hi).trans (mul_le_mul_of_nonneg_right (mul_le_mul_of_nonneg_right (hmono m (by simpa using hm)) hB) (by positivity))
  | cons t l ih =>
    intro st m hm hl hs hlb hb
    have hm1 : m + 1 ≤ N := by simp only [List.length_cons] at hm; omega
    simp only [List.foldl_cons]
    refine ih (pass rn t st) (m + 1) (by simp only [List.length_cons] at hm; omega) (fun a ha => hl a (by simp [ha]))
      (pass_spec h st t (hl t (by simp)) hs).1 (fun a ha => hlb a (by simp [ha])) fun i hi => ?_
    have h1 := pass_bounds hp h (A := m * (1 + F.u) ^ m * B) (B := B) (κ := κ) (by positivity) (by
        have := hmono m (by omega)
        have h2 : (m * (1 + F.u) ^ m + 1) * B ≤ κ * B := mul_le_mul_of_nonneg_right (by linarith) hB
        linarith) hB hκ0 st t 0 (hl t (by simp)) hs (by simpa using hlb t (by simp)) (by simpa using hb) i hi
    rw [Nat.zero_add] at h1
    refine h1.trans (mul_le_mul_of_nonneg_right ?_ (by positivity))
    have h3 : (1 : ℝ) ≤ (1 + F.u) ^ m := one_le_pow₀ (by linarith)
    have h4 : (1 + F.u) * (m * (1 + F.u) ^ m * B + B) ≤ (1 + F.u) * (m * (1 + F.u) ^ m * B + (1 + F.u) ^ m * B) := by
      refine mul_le_mul_of_nonneg_left ?_ (by linarith)
      have : B ≤ (1 + F.u) ^ m * B := le_mul_of_one_le_left hB h3
      linarith
    refine h4.trans (le_of_eq ?_)
    push_cast; rw [pow_succ]; ring

end Mandelbrot.Float
