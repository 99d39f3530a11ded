import Verif.Float.Product

/-!
# Bounds for expansion arithmetic, computed by running the code on bounds

Every value is replaced by a natural number which bounds it, in a unit `ω`; every rounding adds its error, rounded up.  Running the
addition and the multiplication in this way bounds the components of the results and everything that is discarded.  Products may
underflow: each leaves an error of at most half the smallest number, and the unit is chosen larger than that.
-/

namespace Mandelbrot.Float

variable {F : Fmt} {rn : ℝ → ℝ}

/-! ## Errors of rounding, without a condition on the exponents -/

/-- Half the smallest number. -/
noncomputable def Fmt.eta (F : Fmt) : ℝ := (2 : ℝ) ^ F.emin / 2

theorem eta_pos : 0 < F.eta := by
  have := two_zpow_pos F.emin
  unfold Fmt.eta; positivity

/-- The error of rounding any number: half a unit in the last place, or half the smallest number. -/
theorem abs_error (hp : 1 ≤ F.p) {z s : ℝ} (hs : F.Nearest z s) : |z - s| ≤ F.u * |z| + F.eta := by
  have hu := u_pos (F := F)
  have he := eta_pos (F := F)
  refine le_trans (hs.2 _ (rne_rounds hp z).1) ?_
  have hpos := two_zpow_pos (F.lastPlace z)
  have h1 := roundEven_half (z / (2 : ℝ) ^ F.lastPlace z)
  have h2 : |z - F.rne z| = |z / (2 : ℝ) ^ F.lastPlace z - roundEven (z / (2 : ℝ) ^ F.lastPlace z)| * (2 : ℝ) ^ F.lastPlace z := by
    unfold Fmt.rne
    rw [← abs_of_pos hpos, ← abs_mul, abs_of_pos hpos, sub_mul, div_mul_cancel₀ _ hpos.ne']
  have h3 : |z - F.rne z| ≤ 1 / 2 * (2 : ℝ) ^ F.lastPlace z := by
    rw [h2]; exact mul_le_mul_of_nonneg_right h1 hpos.le
  rcases le_total (Int.log 2 |z| + 1 - (F.p : ℤ)) F.emin with hl | hl
  · have hlp : F.lastPlace z = F.emin := max_eq_left hl
    rw [hlp] at h3
    have : 0 ≤ F.u * |z| := by positivity
    unfold Fmt.eta
    linarith
  · by_cases hz : z = 0
    · have h0 : F.rne z = z := (rne_rounds hp z).eq_of_rep (hz ▸ rep_zero)
      rw [h0, sub_self, abs_zero]
      positivity
    have hz0 : 0 < |z| := abs_pos.mpr hz
    have hl1 : (2 : ℝ) ^ Int.log 2 |z| ≤ |z| := Int.zpow_log_le_self (by norm_num) hz0
    have hlp : F.lastPlace z = Int.log 2 |z| + 1 - F.p := max_eq_right hl
    rw [hlp] at h3
    have h4 : 1 / 2 * (2 : ℝ) ^ (Int.log 2 |z| + 1 - (F.p : ℤ)) = F.u * (2 : ℝ) ^ Int.log 2 |z| := by
      rw [zpow_sub₀ (by norm_num), zpow_add₀ (by norm_num), zpow_one, zpow_natCast]
      unfold Fmt.u
      ring
    rw [h4] at h3
    have := mul_le_mul_of_nonneg_left hl1 hu.le
    linarith

/-- The error of rounding a number whose last place is that of the smallest number. -/
theorem small_error {z s : ℝ} (hs : F.Nearest z s) (hz : |z| ≤ 2 ^ F.p * (2 : ℝ) ^ F.emin) : |z - s| ≤ F.eta := by
  have hpos := two_zpow_pos F.emin
  set m := roundEven (z / (2 : ℝ) ^ F.emin) with hm
  have h1 := roundEven_half (z / (2 : ℝ) ^ F.emin)
  have hzz : |z / (2 : ℝ) ^ F.emin| ≤ 2 ^ F.p := by
    rw [abs_div, abs_of_pos hpos, div_le_iff₀ hpos]; exact hz
  have hmb : |m| ≤ 2 ^ F.p := by
    have h2 : |(m : ℝ)| ≤ 2 ^ F.p + 1 / 2 := by
      calc |(m : ℝ)| = |z / (2 : ℝ) ^ F.emin - (z / (2 : ℝ) ^ F.emin - m)| := by congr 1; ring
        _ ≤ |z / (2 : ℝ) ^ F.emin| + |z / (2 : ℝ) ^ F.emin - m| := abs_sub _ _
        _ ≤ _ := add_le_add hzz h1
    have h3 : |(m : ℝ)| < ((2 ^ F.p + 1 : ℤ) : ℝ) := by push_cast; linarith
    have h4 : |m| < 2 ^ F.p + 1 := by exact_mod_cast h3
    omega
  refine (hs.2 (m * (2 : ℝ) ^ F.emin) ⟨m, F.emin, rfl, hmb, le_rfl⟩).trans ?_
  have h5 : z - m * (2 : ℝ) ^ F.emin = (z / (2 : ℝ) ^ F.emin - m) * (2 : ℝ) ^ F.emin := by
    rw [sub_mul, div_mul_cancel₀ _ hpos.ne']
  rw [h5, abs_mul, abs_of_pos hpos]
  unfold Fmt.eta
  linarith [mul_le_mul_of_nonneg_right h1 hpos.le]

/-- The size below which products lose bits. -/
noncomputable def Fmt.theta (F : Fmt) : ℝ := 2 ^ F.p * (2 : ℝ) ^ F.emin

theorem theta_pos : 0 < F.theta := by
  have := two_zpow_pos F.emin
  unfold Fmt.theta; positivity

theorem eta_eq : 2 * F.eta = F.u * F.theta := by
  have : (2 : ℝ) ^ F.p ≠ 0 := by positivity
  unfold Fmt.eta Fmt.u Fmt.theta
  field_simp

/-- `two_prod` without a condition on the exponents. -/
theorem twoProd_any (hp : 1 ≤ F.p) (h : F.Rounds rn) {a b : ℝ} (ha : F.Rep a) (hb : F.Rep b) :
    F.Rep (twoProd rn a b).1 ∧ F.Rep (twoProd rn a b).2 ∧ |a * b - (twoProd rn a b).1 - (twoProd rn a b).2| ≤ F.eta ∧
      |(twoProd rn a b).1| ≤ (1 + F.u) * (|a * b| + F.theta) ∧ |(twoProd rn a b).2| ≤ F.u * (|a * b| + F.theta) := by
  have hu := u_pos (F := F)
  have ht := theta_pos (F := F)
  have hη := eta_pos (F := F)
  have heq := eta_eq (F := F)
  have e1 := abs_error hp (h (a * b))
  have key : |a * b - rn (a * b) - rn (a * b + -rn (a * b))| ≤ F.eta := by
    obtain ⟨m, j, ha1, ha2, _⟩ := ha
    obtain ⟨n, k, hb1, hb2, _⟩ := hb
    by_cases hjk : F.emin ≤ j + k
    · have hr := (twoProd_spec h ⟨m, n, j, k, ha1, hb1, ha2, hb2, hjk⟩).2
      rw [← sub_eq_add_neg, rounds_eq h hr, sub_self, abs_zero]
      exact hη.le
    · have hs := small_error (h (a * b - rn (a * b))) ?_
      · rwa [← sub_eq_add_neg]
      · refine e1.trans ?_
        have hz : |a * b| ≤ 2 ^ F.p * F.theta / 2 := by
          have hm : |(m : ℝ)| ≤ 2 ^ F.p := by exact_mod_cast ha2
          have hn : |(n : ℝ)| ≤ 2 ^ F.p := by exact_mod_cast hb2
          have h1 : |a * b| = |(m : ℝ)| * |(n : ℝ)| * (2 : ℝ) ^ (j + k) := by
            rw [ha1, hb1, zpow_add₀ (by norm_num), abs_mul, abs_mul, abs_mul, abs_of_pos (two_zpow_pos j), abs_of_pos (two_zpow_pos k)]
            ring
          have h2 : (2 : ℝ) ^ (j + k) ≤ (2 : ℝ) ^ F.emin / 2 := by
            have : (2 : ℝ) ^ (j + k) ≤ (2 : ℝ) ^ (F.emin - 1) := zpow_le_zpow_right₀ (by norm_num) (by omega)
            rwa [zpow_sub₀ (by norm_num), zpow_one] at this
          rw [h1]
          unfold Fmt.theta
          calc |(m : ℝ)| * |(n : ℝ)| * (2 : ℝ) ^ (j + k) ≤ 2 ^ F.p * 2 ^ F.p * ((2 : ℝ) ^ F.emin / 2) :=
                mul_le_mul (mul_le_mul hm hn (abs_nonneg _) (by positivity)) h2 (two_zpow_pos _).le (by positivity)
            _ = _ := by ring
        have h3 : F.u * |a * b| ≤ F.theta / 2 := by
          have := mul_le_mul_of_nonneg_left hz hu.le
          have h4 : F.u * (2 ^ F.p * F.theta / 2) = F.theta / 2 := by
            have : (2 : ℝ) ^ F.p ≠ 0 := by positivity
            unfold Fmt.u; field_simp
          linarith
        have h5 : F.eta ≤ F.theta / 2 := by
          have hu1 : F.u ≤ 1 := by
            unfold Fmt.u
            rw [div_le_one (by positivity)]
            exact one_le_pow₀ (by norm_num)
          have := mul_le_mul_of_nonneg_right hu1 ht.le
          linarith
        show F.u * |a * b| + F.eta ≤ F.theta
        linarith
  refine ⟨(h _).1, (h _).1, key, ?_, ?_⟩
  · show |rn (a * b)| ≤ _
    have h1 : |rn (a * b)| ≤ |a * b| + |a * b - rn (a * b)| := by
      calc |rn (a * b)| = |a * b - (a * b - rn (a * b))| := by congr 1; ring
        _ ≤ _ := abs_sub _ _
    have h2 : 0 ≤ F.u * F.theta := by positivity
    nlinarith
  · show |rn (a * b + -rn (a * b))| ≤ _
    have h1 : |rn (a * b + -rn (a * b))| ≤ |a * b - rn (a * b)| + |a * b - rn (a * b) - rn (a * b + -rn (a * b))| := by
      calc |rn (a * b + -rn (a * b))| = |(a * b - rn (a * b)) - (a * b - rn (a * b) - rn (a * b + -rn (a * b)))| := by congr 1; ring
        _ ≤ _ := abs_sub _ _
    linarith

/-! ## The code on bounds -/

/-- A multiple of the unit roundoff, rounded up. -/
def up (p A : ℕ) : ℕ := (A + 2 ^ p - 1) / 2 ^ p

def twoSumB (p A B : ℕ) : ℕ × ℕ := if A = 0 then (B, 0) else if B = 0 then (A, 0) else (A + B + up p (A + B), up p (A + B))

def twoProdB (p K A B : ℕ) : ℕ × ℕ :=
  if A = 0 ∨ B = 0 then (0, 0) else (A * B / 2 ^ K + 2 + up p (A * B / 2 ^ K + 2), up p (A * B / 2 ^ K + 2))

def passB (p : ℕ) : ℕ → List ℕ → List ℕ
  | t, [] => [t]
  | t, s :: l => (twoSumB p t s).1 :: passB p (twoSumB p t s).2 l

def interleaveB : List ℕ → List ℕ → List ℕ
  | a :: x, b :: y => a :: b :: interleaveB x y
  | _, _ => []

def sumStateB (p : ℕ) (x y : List ℕ) : List ℕ := (interleaveB x y).foldl (fun st t => passB p t st) []

/-- Bounds of the components of a sum, and of what is discarded. -/
def addB (p : ℕ) (x y : List ℕ) : List ℕ × ℕ := ((sumStateB p x y).take x.length, ((sumStateB p x y).drop x.length).sum)

def addPlacesB (p : ℕ) : List ℕ → List ℕ → List ℕ × List ℕ
  | s :: l, e :: m => ((twoSumB p s e).1 :: (addPlacesB p l m).1, (twoSumB p s e).2 :: (addPlacesB p l m).2)
  | _, _ => ([], [])

def drainB (p : ℕ) : ℕ → List ℕ → List ℕ → ℕ → List ℕ × ℕ
  | 0, s, _, out => (s, out)
  | fuel + 1, s, e, out =>
    drainB p fuel (addPlacesB p s e).1 (0 :: (addPlacesB p s e).2.dropLast) (out + (addPlacesB p s e).2.getLast?.getD 0)

def mulRoundB (p K : ℕ) (x : List ℕ) (yi : ℕ) (s : List ℕ) : List ℕ × ℕ × ℕ :=
  let pe := x.map fun xj => twoProdB p K xj yi
  let r := addPlacesB p s (pe.map fun q => q.1)
  let d1 := drainB p x.length (r.1.tail ++ [0]) (pe.map fun q => q.2) 0
  let d2 := drainB p x.length d1.1 r.2 0
  (d2.1, r.1.headD 0, d1.2 + d2.2)

def mulRoundsB (p K : ℕ) (x : List ℕ) : List ℕ → List ℕ → List ℕ × List ℕ × ℕ
  | [], s => (s, [], 0)
  | yi :: y, s =>
    let r := mulRoundB p K x yi s
    let q := mulRoundsB p K x y r.1
    (q.1, r.2.1 :: q.2.1, r.2.2 + q.2.2)

/-- Bounds of the components of a product, and of what is discarded. -/
def mulB (p K : ℕ) (x y : List ℕ) : List ℕ × ℕ :=
  let r := mulRoundsB p K x y (List.replicate x.length 0)
  (r.2.1, r.1.sum + r.2.2 + 1)

/-! ## The bounds hold -/

/-- A value is bounded by a multiple of the unit. -/
def Bd (ω : ℝ) (a : Sc) (A : ℕ) : Prop := |a.val| ≤ ω * A

/-- The components of an expansion are bounded. -/
def Bds (ω : ℝ) (x : List ℝ) (A : List ℕ) : Prop := List.Forall₂ (fun (a : ℝ) (C : ℕ) => |a| ≤ ω * (C : ℝ)) x A

theorem up_ge (p A : ℕ) : (A : ℝ) / 2 ^ p ≤ up p A := by
  have h2 : 0 < 2 ^ p := by positivity
  rw [div_le_iff₀ (by positivity)]
  have h1 : A ≤ up p A * 2 ^ p := by
    have h3 := Nat.div_add_mod (A + 2 ^ p - 1) (2 ^ p)
    have h4 := Nat.mod_lt (A + 2 ^ p - 1) h2
    unfold up
    rw [mul_comm] at h3
    omega
  exact_mod_cast h1

theorem u_up {ω : ℝ} (hω : 0 ≤ ω) (A : ℕ) : F.u * (ω * A) ≤ ω * up F.p A := by
  have := mul_le_mul_of_nonneg_left (up_ge F.p A) hω
  refine le_trans (le_of_eq ?_) this
  unfold Fmt.u; ring

theorem bd_zero {ω : ℝ} {a : Sc} (h : Bd ω a 0) : a.val = 0 := by
  have : |a.val| ≤ 0 := by simpa [Bd] using h
  exact abs_eq_zero.mp (le_antisymm this (abs_nonneg _))

theorem twoSum_bd (hp : 1 ≤ F.p) (h : F.Rounds rn) {ω : ℝ} (hω : 0 ≤ ω) {a b : Sc} {A B : ℕ} (oa : a.Ok F) (ob : b.Ok F)
    (ha : Bd ω a A) (hb : Bd ω b B) :
    Bd ω (twoSum rn a b).1 (twoSumB F.p A B).1 ∧ Bd ω (twoSum rn a b).2 (twoSumB F.p A B).2 := by
  obtain ⟨v1, v2⟩ := twoSum_val h oa ob
  unfold twoSumB
  by_cases hA : A = 0
  · subst hA
    have h0 := bd_zero ha
    rw [h0, zero_add, rounds_eq h ob] at v1 v2
    rw [if_pos rfl]
    exact ⟨by unfold Bd; rw [v1]; exact hb, by unfold Bd; rw [v2]; simp⟩
  · rw [if_neg hA]
    by_cases hB : B = 0
    · subst hB
      have h0 := bd_zero hb
      rw [h0, add_zero, rounds_eq h oa] at v1 v2
      rw [if_pos rfl]
      exact ⟨by unfold Bd; rw [v1]; exact ha, by unfold Bd; rw [v2]; simp⟩
    · rw [if_neg hB]
      obtain ⟨b1, b2⟩ := twoSum_bounds hp h oa ob
      have hu := u_pos (F := F)
      have hs : |a.val| + |b.val| ≤ ω * (A + B : ℕ) := by
        unfold Bd at ha hb
        push_cast; linarith
      have h3 := mul_le_mul_of_nonneg_left hs hu.le
      have h4 := u_up (F := F) hω (A + B)
      refine ⟨b1.trans ?_, b2.trans (h3.trans h4)⟩
      rw [add_mul, one_mul]
      push_cast at *
      linarith

theorem twoSumB_ge (p A B : ℕ) : A ≤ (twoSumB p A B).1 := by
  unfold twoSumB
  split
  · omega
  · split
    · exact le_rfl
    · show A ≤ A + B + up p (A + B); omega

theorem total_le_sum {ω : ℝ} : ∀ {l : List Sc} {L : List ℕ}, List.Forall₂ (Bd ω) l L → |total l| ≤ ω * (L.sum : ℕ) := by
  intro l L h
  induction h with
  | nil => simp
  | cons h1 _ ih =>
    rw [total_cons, List.sum_cons]
    unfold Bd at h1
    push_cast
    refine (abs_add_le _ _).trans ?_
    linarith

/-! ### Addition -/

theorem pass_bd (hp : 1 ≤ F.p) (h : F.Rounds rn) {ω : ℝ} (hω : 0 ≤ ω) {l : List Sc} {L : List ℕ} (hl : List.Forall₂ (Bd ω) l L) :
    ∀ {t : Sc} {T : ℕ}, t.Ok F → (∀ a ∈ l, a.Ok F) → Bd ω t T → List.Forall₂ (Bd ω) (pass rn t l) (passB F.p T L) := by
  induction hl with
  | nil => intro t T _ _ ht; exact List.Forall₂.cons ht List.Forall₂.nil
  | @cons s S l L h1 _ ih =>
    intro t T ot ol ht
    have os := ol s (by simp)
    obtain ⟨b1, b2⟩ := twoSum_bd hp h hω ot os ht h1
    exact List.Forall₂.cons b1 (ih (twoSum_ok h ot os).2 (fun a ha => ol a (by simp [ha])) b2)

theorem fold_bd (hp : 1 ≤ F.p) (h : F.Rounds rn) {ω : ℝ} (hω : 0 ≤ ω) {l : List Sc} {L : List ℕ} (hl : List.Forall₂ (Bd ω) l L) :
    ∀ {st : List Sc} {ST : List ℕ}, (∀ a ∈ l, a.Ok F) → (∀ a ∈ st, a.Ok F) → List.Forall₂ (Bd ω) st ST →
      List.Forall₂ (Bd ω) (l.foldl (fun st t => pass rn t st) st) (L.foldl (fun st t => passB F.p t st) ST) := by
  induction hl with
  | nil => intro st ST _ _ hs; exact hs
  | @cons t T l L h1 _ ih =>
    intro st ST ol os hs
    have ot := ol t (by simp)
    exact ih (fun a ha => ol a (by simp [ha])) (pass_spec h st t ot os).1 (pass_bd hp h hω hs ot os h1)

theorem interleave_bd {ω : ℝ} {x : List ℝ} {X : List ℕ} (hx : Bds ω x X) :
    ∀ {y : List ℝ} {Y : List ℕ}, Bds ω y Y → List.Forall₂ (Bd ω) (interleave x y) (interleaveB X Y) := by
  unfold Bds at *
  induction hx with
  | nil => intro y Y _; exact List.Forall₂.nil
  | cons h1 _ ih =>
    intro y Y hy
    cases hy with
    | nil => exact List.Forall₂.nil
    | cons h2 hy' => exact List.Forall₂.cons h1 (List.Forall₂.cons h2 (ih hy'))

theorem bds_map {ω : ℝ} {l : List Sc} {L : List ℕ} (h : List.Forall₂ (Bd ω) l L) : Bds ω (l.map Sc.val) L := by
  unfold Bds
  induction h with
  | nil => exact List.Forall₂.nil
  | cons h1 _ ih => exact List.Forall₂.cons h1 ih

/-- The sum: the components and what is discarded are within the computed bounds. -/
theorem add_bd (hp : 1 ≤ F.p) (h : F.Rounds rn) {ω : ℝ} (hω : 0 ≤ ω) {x y : List ℝ} {X Y : List ℕ} (hl : x.length = y.length)
    (rx : ∀ a ∈ x, F.Rep a) (ry : ∀ a ∈ y, F.Rep a) (hx : Bds ω x X) (hy : Bds ω y Y) :
    ∃ r, collangeAdd rn x y = .ok r ∧ r.length = x.length ∧ (∀ a ∈ r, F.Rep a) ∧ Bds ω r (addB F.p X Y).1 ∧
      |x.sum + y.sum - r.sum| ≤ ω * (addB F.p X Y).2 := by
  obtain ⟨h1, h2, h3⟩ := sumState_spec h hl rx ry
  have oi : ∀ a ∈ interleave x y, a.Ok F := by
    intro a ha
    obtain ⟨r, rfl, hr⟩ := (interleave_spec x y hl).2.2 a ha
    exact hr.elim (rx r) (ry r)
  have hb : List.Forall₂ (Bd ω) (sumState rn x y) (sumStateB F.p X Y) :=
    fold_bd hp h hω (interleave_bd hx hy) oi (by simp) List.Forall₂.nil
  have hXl : X.length = x.length := (List.Forall₂.length_eq hx).symm
  refine ⟨((sumState rn x y).take x.length).map Sc.val, ?_, ?_, ?_, ?_, ?_⟩
  · simp only [collangeAdd]
    rw [slowAssert_true hl]
    simp only [bok]
    rw [slowAssert_true h3]
    rfl
  · rw [List.length_map, List.length_take, h3]; omega
  · intro a ha
    obtain ⟨b, hb, rfl⟩ := List.mem_map.mp ha
    exact h1 b (List.mem_of_mem_take hb)
  · refine bds_map ?_
    show List.Forall₂ (Bd ω) _ ((sumStateB F.p X Y).take X.length)
    rw [hXl]
    exact List.forall₂_take _ hb
  · show _ ≤ ω * (((sumStateB F.p X Y).drop X.length).sum : ℕ)
    rw [hXl]
    have ht : x.sum + y.sum - (((sumState rn x y).take x.length).map Sc.val).sum = total ((sumState rn x y).drop x.length) := by
      rw [← h2]
      have : total (sumState rn x y) = total ((sumState rn x y).take x.length) + total ((sumState rn x y).drop x.length) := by
        rw [← total_append, List.take_append_drop]
      rw [this]
      unfold total
      ring
    rw [ht]
    exact total_le_sum (List.forall₂_drop _ hb)

/-! ### Multiplication -/

theorem addPlaces_bd (hp : 1 ≤ F.p) (h : F.Rounds rn) {ω : ℝ} (hω : 0 ≤ ω) {s : List Sc} {S : List ℕ} (hs : List.Forall₂ (Bd ω) s S) :
    ∀ {e : List Sc} {E : List ℕ}, (∀ a ∈ s, a.Ok F) → (∀ a ∈ e, a.Ok F) → List.Forall₂ (Bd ω) e E →
      List.Forall₂ (Bd ω) (addPlaces rn s e).1 (addPlacesB F.p S E).1 ∧ List.Forall₂ (Bd ω) (addPlaces rn s e).2 (addPlacesB F.p S E).2 := by
  induction hs with
  | nil => intro e E _ _ _; exact ⟨List.Forall₂.nil, List.Forall₂.nil⟩
  | @cons a A l L h1 _ ih =>
    intro e E os oe he
    cases he with
    | nil => exact ⟨List.Forall₂.nil, List.Forall₂.nil⟩
    | @cons b B m M h2 he' =>
      obtain ⟨b1, b2⟩ := twoSum_bd hp h hω (os a (by simp)) (oe b (by simp)) h1 h2
      obtain ⟨i1, i2⟩ := ih (fun c hc => os c (by simp [hc])) (fun c hc => oe c (by simp [hc])) he'
      exact ⟨List.Forall₂.cons b1 i1, List.Forall₂.cons b2 i2⟩

theorem addPlacesB_ge (p : ℕ) : ∀ (S E : List ℕ), S.length = E.length → List.Forall₂ (· ≤ ·) S (addPlacesB p S E).1 := by
  intro S
  induction S with
  | nil => intro E _; exact List.Forall₂.nil
  | cons A S ih =>
    intro E hE
    cases E with
    | nil => simp at hE
    | cons B E => exact List.Forall₂.cons (twoSumB_ge p A B) (ih E (by simpa using hE))

theorem addPlacesB_length (p : ℕ) : ∀ (S E : List ℕ), S.length = E.length →
    (addPlacesB p S E).1.length = S.length ∧ (addPlacesB p S E).2.length = S.length := by
  intro S
  induction S with
  | nil => intro E _; exact ⟨rfl, rfl⟩
  | cons A S ih =>
    intro E hE
    cases E with
    | nil => simp at hE
    | cons B E =>
      obtain ⟨h1, h2⟩ := ih E (by simpa using hE)
      exact ⟨by simp [addPlacesB, h1], by simp [addPlacesB, h2]⟩

theorem bd_mono {ω : ℝ} (hω : 0 ≤ ω) {l : List Sc} {L : List ℕ} (h : List.Forall₂ (Bd ω) l L) :
    ∀ {M : List ℕ}, List.Forall₂ (· ≤ ·) L M → List.Forall₂ (Bd ω) l M := by
  induction h with
  | nil => intro M hM; cases hM; exact List.Forall₂.nil
  | cons h1 _ ih =>
    intro M hM
    cases hM with
    | cons h2 hM' =>
      refine List.Forall₂.cons ?_ (ih hM')
      unfold Bd at *
      exact h1.trans (mul_le_mul_of_nonneg_left (by exact_mod_cast h2) hω)

theorem forall₂_le_trans {L M N : List ℕ} (h : List.Forall₂ (· ≤ ·) L M) : List.Forall₂ (· ≤ ·) M N → List.Forall₂ (· ≤ ·) L N := by
  intro hN
  induction h generalizing N with
  | nil => cases hN; exact List.Forall₂.nil
  | cons h1 _ ih =>
    cases hN with
    | cons h2 hN' => exact List.Forall₂.cons (le_trans h1 h2) (ih hN')

/-- Rounds on bounds only increase the bounds. -/
theorem drainB_ge (p : ℕ) : ∀ (fuel : ℕ) (S E : List ℕ) (O : ℕ), S.length = E.length →
    List.Forall₂ (· ≤ ·) S (drainB p fuel S E O).1 ∧ O ≤ (drainB p fuel S E O).2 := by
  intro fuel
  induction fuel with
  | zero => intro S E O _; exact ⟨List.forall₂_same.mpr fun _ _ => le_rfl, le_rfl⟩
  | succ fuel ih =>
    intro S E O hl
    obtain ⟨l1, l2⟩ := addPlacesB_length p S E hl
    rw [drainB]
    by_cases h0 : S.length = 0
    · have hS : S = [] := List.length_eq_zero_iff.mp h0
      have hE : E = [] := List.length_eq_zero_iff.mp (hl ▸ h0)
      subst hS hE
      -- the state is empty, whatever the carries are
      have : ∀ (f : ℕ) (E : List ℕ) (O : ℕ), (drainB p f [] E O).1 = [] ∧ O ≤ (drainB p f [] E O).2 := by
        intro f
        induction f with
        | zero => intro E O; exact ⟨rfl, le_rfl⟩
        | succ f ih =>
          intro E O
          rw [drainB]
          obtain ⟨i1, i2⟩ := ih (0 :: (addPlacesB p [] E).2.dropLast) (O + (addPlacesB p [] E).2.getLast?.getD 0)
          have e : (addPlacesB p [] E).1 = [] := by cases E <;> rfl
          rw [e]
          exact ⟨i1, by omega⟩
      obtain ⟨i1, i2⟩ := this fuel (0 :: (addPlacesB p [] []).2.dropLast) (O + (addPlacesB p [] []).2.getLast?.getD 0)
      have e : (addPlacesB p [] []).1 = [] := rfl
      rw [e, i1]
      exact ⟨List.Forall₂.nil, by omega⟩
    · obtain ⟨i1, i2⟩ := ih (addPlacesB p S E).1 (0 :: (addPlacesB p S E).2.dropLast) (O + (addPlacesB p S E).2.getLast?.getD 0)
        (by simp only [List.length_cons, List.length_dropLast, l1, l2]; omega)
      refine ⟨?_, by omega⟩
      exact forall₂_le_trans (addPlacesB_ge p S E hl) i1

theorem dropLast_bd {ω : ℝ} {l : List Sc} {L : List ℕ} (h : List.Forall₂ (Bd ω) l L) : List.Forall₂ (Bd ω) l.dropLast L.dropLast := by
  rw [List.dropLast_eq_take, List.dropLast_eq_take, List.Forall₂.length_eq h]
  exact List.forall₂_take _ h

theorem last_bd {ω : ℝ} {l : List Sc} {L : List ℕ} (h : List.Forall₂ (Bd ω) l L) :
    |total l.getLast?.toList| ≤ ω * (L.getLast?.getD 0 : ℕ) := by
  induction h with
  | nil => simp
  | @cons a A l L h1 h2 ih =>
    cases h2 with
    | nil =>
      unfold Bd at h1
      simpa using h1
    | cons h3 h4 => simpa [List.getLast?_cons_cons] using ih

theorem drain_bd (hp : 1 ≤ F.p) (h : F.Rounds rn) {ω : ℝ} (hω : 0 ≤ ω) : ∀ (fuel : ℕ) {s e out : List Sc} {S E : List ℕ} {O : ℕ},
    s.length = e.length → (∀ a ∈ s, a.Ok F) → (∀ a ∈ e, a.Ok F) → List.Forall₂ (Bd ω) s S → List.Forall₂ (Bd ω) e E →
      |total out| ≤ ω * O →
      List.Forall₂ (Bd ω) (drain rn fuel s e out).1 (drainB F.p fuel S E O).1 ∧
        |total (drain rn fuel s e out).2.2| ≤ ω * (drainB F.p fuel S E O).2 := by
  intro fuel
  induction fuel with
  | zero => intro s e out S E O _ _ _ hs _ ho; exact ⟨hs, ho⟩
  | succ fuel ih =>
    intro s e out S E O hl os oe hs he ho
    have hS := List.Forall₂.length_eq hs
    have hE := List.Forall₂.length_eq he
    rw [drain]
    split
    · rename_i hany
      have hpos : 0 < e.length := by
        cases e with
        | nil => simp at hany
        | cons _ _ => simp
      obtain ⟨l1, l2⟩ := addPlaces_length (rn := rn) s e hl
      obtain ⟨p1, p2, _⟩ := addPlaces_spec h s e hl os oe
      obtain ⟨b1, b2⟩ := addPlaces_bd hp h hω hs os oe he
      rw [drainB]
      refine ih (by simp only [List.length_cons, List.length_dropLast, l1, l2]; omega) p1 ?_ b1
        (List.Forall₂.cons (by simp [Bd, Sc.val]) (dropLast_bd b2)) ?_
      · intro a ha
        simp only [List.mem_cons] at ha
        rcases ha with rfl | ha
        · exact Sc.ok_none
        · exact p2 a (List.dropLast_subset _ ha)
      · rw [total_append]
        push_cast
        refine (abs_add_le _ _).trans ?_
        have := last_bd b2
        linarith
    · obtain ⟨g1, g2⟩ := drainB_ge F.p (fuel + 1) S E O (by omega)
      exact ⟨bd_mono hω hs g1, ho.trans (mul_le_mul_of_nonneg_left (by exact_mod_cast g2) hω)⟩

/-- The unit of a product of numbers measured in units `X / 2^K` and `Y / 2^K`. -/
theorem twoProd_bd (hp : 1 ≤ F.p) (h : F.Rounds rn) {K : ℕ} {X Y : ℝ} (hX : 0 ≤ X) (hY : 0 ≤ Y) (hθ : F.theta ≤ X * Y / 2 ^ K) {a b : ℝ}
    {A B : ℕ} (ra : F.Rep a) (rb : F.Rep b) (ha : |a| ≤ X / 2 ^ K * A) (hb : |b| ≤ Y / 2 ^ K * B) :
    |(twoProd rn a b).1| ≤ X * Y / 2 ^ K * (twoProdB F.p K A B).1 ∧ |(twoProd rn a b).2| ≤ X * Y / 2 ^ K * (twoProdB F.p K A B).2 := by
  have hω : 0 ≤ X * Y / 2 ^ K := by positivity
  unfold twoProdB
  by_cases h0 : A = 0 ∨ B = 0
  · have hz : a * b = 0 := by
      rcases h0 with h0 | h0
      · subst h0
        have : |a| ≤ 0 := by simpa using ha
        rw [abs_eq_zero.mp (le_antisymm this (abs_nonneg _)), zero_mul]
      · subst h0
        have : |b| ≤ 0 := by simpa using hb
        rw [abs_eq_zero.mp (le_antisymm this (abs_nonneg _)), mul_zero]
    rw [if_pos h0]
    simp [twoProd, hz, rounds_eq h rep_zero]
  · rw [if_neg h0]
    obtain ⟨_, _, _, b1, b2⟩ := twoProd_any hp h ra rb
    have hu := u_pos (F := F)
    have hab : |a * b| + F.theta ≤ X * Y / 2 ^ K * (A * B / 2 ^ K + 2 : ℕ) := by
      have h1 : |a * b| ≤ X * Y / 2 ^ K * ((A * B : ℕ) / 2 ^ K) := by
        rw [abs_mul]
        calc |a| * |b| ≤ (X / 2 ^ K * A) * (Y / 2 ^ K * B) := mul_le_mul ha hb (abs_nonneg _) (by positivity)
          _ = _ := by push_cast; ring
      have h2 : ((A * B : ℕ) : ℝ) / 2 ^ K ≤ (A * B / 2 ^ K : ℕ) + 1 := by
        rw [div_le_iff₀ (by positivity)]
        have h3 : A * B ≤ (A * B / 2 ^ K + 1) * 2 ^ K := by
          have h4 := Nat.div_add_mod (A * B) (2 ^ K)
          have h5 := Nat.mod_lt (A * B) (show 0 < 2 ^ K by positivity)
          rw [add_mul, one_mul]
          rw [mul_comm] at h4
          omega
        exact_mod_cast h3
      have h3 := mul_le_mul_of_nonneg_left h2 hω
      push_cast at *
      linarith
    have h4 := mul_le_mul_of_nonneg_left hab hu.le
    have h5 := u_up (F := F) hω (A * B / 2 ^ K + 2)
    refine ⟨b1.trans ?_, b2.trans (h4.trans h5)⟩
    rw [add_mul, one_mul]
    rw [Nat.cast_add (A * B / 2 ^ K + 2), mul_add]
    linarith

theorem prods_bd (hp : 1 ≤ F.p) (h : F.Rounds rn) {K : ℕ} {X Y : ℝ} (hX : 0 ≤ X) (hY : 0 ≤ Y) (hθ : F.theta ≤ X * Y / 2 ^ K) {b : ℝ} {B : ℕ}
    (rb : F.Rep b) (hb : |b| ≤ Y / 2 ^ K * B) {x : List ℝ} {A : List ℕ} (hx : Bds (X / 2 ^ K) x A) : (∀ a ∈ x, F.Rep a) →
    List.Forall₂ (Bd (X * Y / 2 ^ K)) ((x.map fun xj => twoProd rn xj b).map fun q => some q.1)
        ((A.map fun xj => twoProdB F.p K xj B).map fun q => q.1) ∧
      List.Forall₂ (Bd (X * Y / 2 ^ K)) ((x.map fun xj => twoProd rn xj b).map fun q => some q.2)
        ((A.map fun xj => twoProdB F.p K xj B).map fun q => q.2) ∧
      (∀ a ∈ (x.map fun xj => twoProd rn xj b).map (fun q => some q.1), Sc.Ok F a) ∧
      (∀ a ∈ (x.map fun xj => twoProd rn xj b).map (fun q => some q.2), Sc.Ok F a) ∧
      |x.sum * b - total ((x.map fun xj => twoProd rn xj b).map fun q => some q.1) -
        total ((x.map fun xj => twoProd rn xj b).map fun q => some q.2)| ≤ x.length * F.eta := by
  unfold Bds at hx
  induction hx with
  | nil => intro _; exact ⟨List.Forall₂.nil, List.Forall₂.nil, by simp, by simp, by simp⟩
  | @cons a A' l L h1 _ ih =>
    intro rx
    have ra := rx a (by simp)
    obtain ⟨i1, i2, i3, i4, i5⟩ := ih fun c hc => rx c (by simp [hc])
    obtain ⟨b1, b2⟩ := twoProd_bd hp h hX hY hθ ra rb h1 hb
    obtain ⟨r1, r2, r3, _, _⟩ := twoProd_any hp h ra rb
    refine ⟨List.Forall₂.cons b1 i1, List.Forall₂.cons b2 i2, ?_, ?_, ?_⟩
    · intro c hc
      simp only [List.map_cons, List.mem_cons] at hc
      rcases hc with rfl | hc
      · exact r1
      · exact i3 c hc
    · intro c hc
      simp only [List.map_cons, List.mem_cons] at hc
      rcases hc with rfl | hc
      · exact r2
      · exact i4 c hc
    · simp only [List.map_cons, total_cons, List.sum_cons, List.length_cons, Sc.val, Option.getD_some] at i5 ⊢
      push_cast
      have e : (a + l.sum) * b - ((twoProd rn a b).1 + total ((l.map fun xj => twoProd rn xj b).map fun q => some q.1)) -
          ((twoProd rn a b).2 + total ((l.map fun xj => twoProd rn xj b).map fun q => some q.2)) =
          (a * b - (twoProd rn a b).1 - (twoProd rn a b).2) + (l.sum * b - total ((l.map fun xj => twoProd rn xj b).map fun q => some q.1) -
            total ((l.map fun xj => twoProd rn xj b).map fun q => some q.2)) := by ring
      rw [e]
      refine (abs_add_le _ _).trans ?_
      linarith

theorem tail_bd {ω : ℝ} {l : List Sc} {L : List ℕ} (h : List.Forall₂ (Bd ω) l L) : List.Forall₂ (Bd ω) (l.tail ++ [none]) (L.tail ++ [0]) := by
  refine List.rel_append ?_ (List.Forall₂.cons (by simp [Bd, Sc.val]) List.Forall₂.nil)
  cases h with
  | nil => exact List.Forall₂.nil
  | cons _ h => exact h

theorem head_bd {ω : ℝ} {l : List Sc} {L : List ℕ} (h : List.Forall₂ (Bd ω) l L) : Bd ω (l.headD none) (L.headD 0) := by
  cases h with
  | nil => simp [Bd, Sc.val]
  | cons h _ => exact h

theorem mulRound_bd (hp : 1 ≤ F.p) (h : F.Rounds rn) {K : ℕ} {X Y : ℝ} (hX : 0 ≤ X) (hY : 0 ≤ Y) (hθ : F.theta ≤ X * Y / 2 ^ K) {b : ℝ} {B : ℕ}
    (rb : F.Rep b) (hb : |b| ≤ Y / 2 ^ K * B) {x : List ℝ} {A : List ℕ} (hn : 0 < x.length) (rx : ∀ a ∈ x, F.Rep a)
    (hx : Bds (X / 2 ^ K) x A) {s : List Sc} {S : List ℕ} (hl : s.length = x.length) (os : ∀ a ∈ s, a.Ok F)
    (hs : List.Forall₂ (Bd (X * Y / 2 ^ K)) s S) :
    (mulRound rn x b s).1.length = x.length ∧ (∀ a ∈ (mulRound rn x b s).1, a.Ok F) ∧ (mulRound rn x b s).2.1.Ok F ∧
      List.Forall₂ (Bd (X * Y / 2 ^ K)) (mulRound rn x b s).1 (mulRoundB F.p K A B S).1 ∧
      Bd (X * Y / 2 ^ K) (mulRound rn x b s).2.1 (mulRoundB F.p K A B S).2.1 ∧
      |total (mulRound rn x b s).2.2| ≤ X * Y / 2 ^ K * (mulRoundB F.p K A B S).2.2 ∧
      |total s + x.sum * b - (total (mulRound rn x b s).1 + (mulRound rn x b s).2.1.val + total (mulRound rn x b s).2.2)| ≤
        x.length * F.eta := by
  have hω : 0 ≤ X * Y / 2 ^ K := by positivity
  obtain ⟨w1, w2, q1, q2, q3⟩ := prods_bd hp h hX hY hθ rb hb hx rx
  have hAl : A.length = x.length := (List.Forall₂.length_eq hx).symm
  simp only [mulRound, mulRoundB]
  rw [hAl]
  set pe := x.map fun xj => twoProd rn xj b with hpe
  set peB := A.map fun xj => twoProdB F.p K xj B with hpeB
  have hpl : pe.length = x.length := by simp [hpe]
  obtain ⟨l1, l2⟩ := addPlaces_length (rn := rn) s (pe.map fun q => some q.1) (by simp [hpl, hl])
  obtain ⟨p1, p2, p3⟩ := addPlaces_spec h s (pe.map fun q => some q.1) (by simp [hpl, hl]) os q1
  obtain ⟨a1, a2⟩ := addPlaces_bd hp h hω hs os q1 w1
  set r := addPlaces rn s (pe.map fun q => some q.1) with hr
  set R := addPlacesB F.p S (peB.map fun q => q.1) with hR
  have t1 : (r.1.tail ++ [none]).length = x.length := tail_length (l1.trans hl) hn
  have t2 : ∀ a ∈ r.1.tail ++ [none], a.Ok F := by
    intro a ha
    rw [List.mem_append] at ha
    rcases ha with ha | ha
    · exact p1 a (List.mem_of_mem_tail ha)
    · rw [List.mem_singleton.mp ha]; exact Sc.ok_none
  have e1 : (r.1.tail ++ [none]).length = (pe.map fun q => some q.2).length := by rw [t1, List.length_map, hpl]
  obtain ⟨d1, d2⟩ := drain_spec h x.length _ _ [] e1 t2 q2
  obtain ⟨d3, _⟩ := drain_length (rn := rn) x.length _ _ [] e1
  have d4 := drain_done (rn := rn) x.length 0 _ _ [] e1 (by simp [hpl]) (by simp)
  obtain ⟨g1, g2⟩ := drain_bd hp h hω x.length (out := []) (O := 0) e1 t2 q2 (tail_bd a1) w2 (by simp)
  set D1 := drain rn x.length (r.1.tail ++ [none]) (pe.map fun q => some q.2) [] with hD1
  have e2 : D1.1.length = r.2.length := by rw [d3, t1, l2, hl]
  obtain ⟨f1, f2⟩ := drain_spec h x.length _ _ [] e2 d1 p2
  obtain ⟨f3, _⟩ := drain_length (rn := rn) x.length _ _ [] e2
  have f4 := drain_done (rn := rn) x.length 0 _ _ [] e2 (by rw [l2, hl]; omega) (by simp)
  obtain ⟨j1, j2⟩ := drain_bd hp h hω x.length (out := []) (O := 0) e2 d1 p2 g1 a2 (by simp)
  refine ⟨by rw [f3, d3, t1], f1, ?_, j1, head_bd a1, ?_, ?_⟩
  · have hne : r.1 ≠ [] := by
      intro h0
      rw [h0] at l1
      simp only [List.length_nil] at l1
      omega
    obtain ⟨c, m, hc⟩ := List.exists_cons_of_ne_nil hne
    rw [hc] at p1 ⊢
    exact p1 c (by simp)
  · rw [total_append]
    push_cast
    refine (abs_add_le _ _).trans ?_
    linarith
  · rw [total_none d4] at d2
    rw [total_none f4] at f2
    have ht := total_tail r.1
    rw [total_append] at d2 ⊢
    simp only [total_nil, total_cons, Sc.val, Option.getD_none] at d2 f2 ht ⊢
    have e : total s + x.sum * b - (total (drain rn x.length D1.1 r.2 []).1 + (r.1.headD none).getD 0 + (total D1.2.2 +
        total (drain rn x.length D1.1 r.2 []).2.2)) = x.sum * b - total (pe.map fun q => some q.1) - total (pe.map fun q => some q.2) := by
      linarith
    rw [e]
    exact q3

theorem mulRounds_bd (hp : 1 ≤ F.p) (h : F.Rounds rn) {K : ℕ} {X Y : ℝ} (hX : 0 ≤ X) (hY : 0 ≤ Y) (hθ : F.theta ≤ X * Y / 2 ^ K) {x : List ℝ}
    {A : List ℕ} (hn : 0 < x.length) (rx : ∀ a ∈ x, F.Rep a) (hx : Bds (X / 2 ^ K) x A) {y : List ℝ} {B : List ℕ} (hy : Bds (Y / 2 ^ K) y B) :
    ∀ {s : List Sc} {S : List ℕ}, (∀ a ∈ y, F.Rep a) → s.length = x.length → (∀ a ∈ s, a.Ok F) →
      List.Forall₂ (Bd (X * Y / 2 ^ K)) s S →
      (mulRounds rn x y s).2.1.length = y.length ∧ (∀ a ∈ (mulRounds rn x y s).2.1, a.Ok F) ∧
      List.Forall₂ (Bd (X * Y / 2 ^ K)) (mulRounds rn x y s).1 (mulRoundsB F.p K A B S).1 ∧
      List.Forall₂ (Bd (X * Y / 2 ^ K)) (mulRounds rn x y s).2.1 (mulRoundsB F.p K A B S).2.1 ∧
      |total (mulRounds rn x y s).2.2| ≤ X * Y / 2 ^ K * (mulRoundsB F.p K A B S).2.2 ∧
      |total s + x.sum * y.sum - (total (mulRounds rn x y s).1 + total (mulRounds rn x y s).2.1 + total (mulRounds rn x y s).2.2)| ≤
        y.length * (x.length * F.eta) := by
  unfold Bds at hy
  induction hy with
  | nil =>
    intro s S _ hl os hs
    exact ⟨rfl, by simp [mulRounds], hs, List.Forall₂.nil, by simp [mulRounds, mulRoundsB], by simp [mulRounds]⟩
  | @cons b B' y B hb _ ih =>
    intro s S ry hl os hs
    obtain ⟨m1, m2, m3, m4, m5, m6, m7⟩ := mulRound_bd hp h hX hY hθ (ry b (by simp)) hb hn rx hx hl os hs
    obtain ⟨i1, i2, i3, i4, i5, i6⟩ := ih (fun c hc => ry c (by simp [hc])) m1 m2 m4
    refine ⟨by simp [mulRounds, i1], ?_, i3, List.Forall₂.cons m5 i4, ?_, ?_⟩
    · intro a ha
      simp only [mulRounds, List.mem_cons] at ha
      rcases ha with rfl | ha
      · exact m3
      · exact i2 a ha
    · simp only [mulRounds, mulRoundsB, total_append]
      push_cast
      refine (abs_add_le _ _).trans ?_
      linarith
    · simp only [mulRounds, total_cons, total_append, List.sum_cons, List.length_cons]
      push_cast
      have e : total s + x.sum * (b + y.sum) - (total (mulRounds rn x y (mulRound rn x b s).1).1 + ((mulRound rn x b s).2.1.val +
          total (mulRounds rn x y (mulRound rn x b s).1).2.1) + (total (mulRound rn x b s).2.2 +
          total (mulRounds rn x y (mulRound rn x b s).1).2.2)) =
          (total s + x.sum * b - (total (mulRound rn x b s).1 + (mulRound rn x b s).2.1.val + total (mulRound rn x b s).2.2)) +
          (total (mulRound rn x b s).1 + x.sum * y.sum - (total (mulRounds rn x y (mulRound rn x b s).1).1 +
            total (mulRounds rn x y (mulRound rn x b s).1).2.1 + total (mulRounds rn x y (mulRound rn x b s).1).2.2)) := by ring
      rw [e]
      refine (abs_add_le _ _).trans ?_
      linarith

/-- The product: the components and the error are within the computed bounds; underflow is included. -/
theorem mul_bd (hp : 1 ≤ F.p) (h : F.Rounds rn) {K : ℕ} {X Y : ℝ} (hX : 0 ≤ X) (hY : 0 ≤ Y) (hθ : F.theta ≤ X * Y / 2 ^ K) {x y : List ℝ}
    {A B : List ℕ} (hn : 0 < x.length) (hn4 : x.length ≤ 4) (hp4 : 4 ≤ F.p) (hl : x.length = y.length) (rx : ∀ a ∈ x, F.Rep a)
    (ry : ∀ a ∈ y, F.Rep a) (hx : Bds (X / 2 ^ K) x A) (hy : Bds (Y / 2 ^ K) y B) :
    ∃ r, collangeMul rn x y = .ok r ∧ r.length = x.length ∧ (∀ a ∈ r, F.Rep a) ∧ Bds (X * Y / 2 ^ K) r (mulB F.p K A B).1 ∧
      |x.sum * y.sum - r.sum| ≤ X * Y / 2 ^ K * (mulB F.p K A B).2 := by
  have hω : 0 ≤ X * Y / 2 ^ K := by positivity
  have hAl : A.length = x.length := (List.Forall₂.length_eq hx).symm
  have hrep : total (List.replicate x.length none) = 0 := total_none fun a ha => (List.mem_replicate.mp ha).2
  obtain ⟨h1, h2, h3, h4, h5, h6⟩ := mulRounds_bd hp h hX hY hθ hn rx hx hy (s := List.replicate x.length none)
    (S := List.replicate x.length 0) ry (by simp) (fun a ha => by rw [(List.mem_replicate.mp ha).2]; exact Sc.ok_none) (by
      have : ∀ k : ℕ, List.Forall₂ (Bd (X * Y / 2 ^ K)) (List.replicate k none) (List.replicate k 0) := by
        intro k
        induction k with
        | zero => exact List.Forall₂.nil
        | succ k ih => exact List.Forall₂.cons (by simp [Bd, Sc.val]) ih
      exact this _)
  refine ⟨(mulRounds rn x y (List.replicate x.length none)).2.1.map Sc.val, ?_, by rw [List.length_map, h1, hl], ?_, ?_, ?_⟩
  · simp only [collangeMul]
    rw [slowAssert_true hl]
    simp only [bok]
    rw [slowAssert_true (by rw [h1, hl])]
    rfl
  · intro a ha
    obtain ⟨b, hb, rfl⟩ := List.mem_map.mp ha
    exact h2 b hb
  · simp only [mulB, hAl]
    exact bds_map h4
  · simp only [mulB, hAl]
    have e7 := total_le_sum h3
    rw [hrep, zero_add] at h6
    have hη : (y.length : ℝ) * (x.length * F.eta) ≤ X * Y / 2 ^ K := by
      have hη0 := eta_pos (F := F)
      have hη1 := eta_eq (F := F)
      have hθ0 := theta_pos (F := F)
      have hu : 8 * F.u ≤ 1 := by
        unfold Fmt.u
        have : (2 : ℝ) ^ 4 ≤ 2 ^ F.p := pow_le_pow_right₀ (by norm_num) hp4
        rw [mul_one_div, div_le_one (by positivity)]
        linarith
      have h4' : (x.length : ℝ) ≤ 4 := by exact_mod_cast hn4
      rw [← hl]
      have h8 : (x.length : ℝ) * (x.length * F.eta) ≤ 4 * (4 * F.eta) :=
        mul_le_mul h4' (mul_le_mul_of_nonneg_right h4' hη0.le) (by positivity) (by norm_num)
      have h9 := mul_le_mul_of_nonneg_right hu hθ0.le
      linarith
    have e8 : x.sum * y.sum - ((mulRounds rn x y (List.replicate x.length none)).2.1.map Sc.val).sum =
        (x.sum * y.sum - (total (mulRounds rn x y (List.replicate x.length none)).1 + total (mulRounds rn x y (List.replicate x.length none)).2.1 +
          total (mulRounds rn x y (List.replicate x.length none)).2.2)) +
        (total (mulRounds rn x y (List.replicate x.length none)).1 + total (mulRounds rn x y (List.replicate x.length none)).2.2) := by
      show _ - total _ = _
      ring
    rw [e8]
    refine (abs_add_le _ _).trans ?_
    have e9 := abs_add_le (total (mulRounds rn x y (List.replicate x.length none)).1) (total (mulRounds rn x y (List.replicate x.length none)).2.2)
    push_cast
    linarith

end Mandelbrot.Float
