import Verif.Float.ToArb
import Mathlib.Algebra.BigOperators.Group.List.Lemmas
import Mathlib.Algebra.Order.BigOperators.Group.List
import Mathlib.Data.EReal.Operations
import Mathlib.Data.Nat.Log
import Mathlib.Data.Nat.Prime.Basic
import Mathlib.Tactic.NormNum.Prime
import Mathlib.Tactic.Linarith
import Mathlib.Tactic.Ring
import Mathlib.Tactic.NormNum

/-!
# C77: values are handed to ball arithmetic without loss, and reported ranges and errors are bounds
-/

namespace Mandelbrot.Props
open Mandelbrot.Float Mandelbrot.Float.ToArb

namespace Arbs

/-- The number has at most `prec` bits, at any exponent. -/
def Bits (prec : ℕ) (v : ℝ) : Prop := ∃ (q e : ℤ), v = q * (2 : ℝ) ^ e ∧ |q| ≤ 2 ^ prec

/-- What the library promises: `Mem b v` says that `v` lies in `b`.  Every operation encloses; a sum of two points that has at most `prec`
bits is a point. -/
structure Promise (A : Ops) (Mem : A.Ball → ℝ → Prop) : Prop where
  zero : ∀ v, Mem A.zero v ↔ v = 0
  ofReal : ∀ a v, Mem (A.ofReal a) v ↔ v = a
  add : ∀ a b prec u v, Mem a u → Mem b v → Mem (A.add a b prec) (u + v)
  sub : ∀ a b prec u v, Mem a u → Mem b v → Mem (A.sub a b prec) (u - v)
  point : ∀ a b prec u v, (∀ w, Mem a w ↔ w = u) → (∀ w, Mem b w ↔ w = v) → Bits prec (u + v) → ∀ w, Mem (A.add a b prec) w ↔ w = u + v
  bound : ∀ b v, Mem b v → ((|v| : ℝ) : EReal) ≤ A.bound b
  lower : ∀ b prec v, Mem b v → A.lbound b prec ≤ v
  upper : ∀ b prec v, Mem b v → (v : EReal) ≤ A.ubound b prec
  radius : ∀ b u v, Mem b u → Mem b v → ((|u - v| : ℝ) : EReal) ≤ A.radius b + A.radius b

end Arbs
open Arbs

variable {A : Ops} {Mem : A.Ball → ℝ → Prop}

theorem toArb_fold (P : Promise A Mem) (prec : ℕ) (x : List ℝ) {a : A.Ball} {u : ℝ} (ha : Mem a u) :
    Mem (x.foldl (fun a t => A.add a (A.ofReal t) prec) a) (u + x.sum) := by
  induction x generalizing a u with
  | nil => simpa using ha
  | cons t x ih =>
    rw [List.foldl_cons, List.sum_cons, ← add_assoc]
    exact ih (P.add _ _ _ _ _ ha ((P.ofReal _ _).mpr rfl))

/-- **C77.** At every precision the ball of an expansion contains its value. -/
theorem C77_arb (P : Promise A Mem) (x : List ℝ) (prec : ℕ) : Mem (arb A x prec) x.sum := by
  have := toArb_fold P prec x.reverse ((P.zero 0).mpr rfl)
  rwa [zero_add, List.sum_reverse] at this

theorem toArb_point (P : Promise A Mem) {prec : ℕ} {e : ℤ} (x : List ℝ) {a : A.Ball} {u : ℝ} (ha : ∀ w, Mem a w ↔ w = u) (hu : Mult e u)
    (hx : ∀ c ∈ x, Mult e c) (hb : |u| + (x.map abs).sum ≤ 2 ^ prec * (2 : ℝ) ^ e) :
    ∀ w, Mem (x.foldl (fun a t => A.add a (A.ofReal t) prec) a) w ↔ w = u + x.sum := by
  induction x generalizing a u with
  | nil => simpa using ha
  | cons t x ih =>
    rw [List.foldl_cons, List.sum_cons, ← add_assoc]
    rw [List.map_cons, List.sum_cons] at hb
    have hm : Mult e (u + t) := hu.add (hx t (by simp))
    have h0 : 0 ≤ (x.map abs).sum := List.sum_nonneg (by simp)
    have ht := abs_add_le u t
    refine ih (P.point _ _ _ _ _ ha (P.ofReal t) ?_) hm (fun c hc => hx c (by simp [hc])) (by linarith)
    obtain ⟨q, hq⟩ := hm
    refine ⟨q, e, hq, ?_⟩
    have h1 : |u + t| ≤ 2 ^ prec * (2 : ℝ) ^ e := by linarith
    rw [hq, abs_mul, abs_of_pos (two_zpow_pos e)] at h1
    have h2 := le_of_mul_le_mul_right h1 (two_zpow_pos e)
    exact_mod_cast h2

/-- **C77.** The ball is the value itself if the precision reaches from the size of the expansion to its last bit. -/
theorem C77_arb_exact (P : Promise A Mem) {x : List ℝ} {prec : ℕ} (e : ℤ) (hx : ∀ c ∈ x, ∃ m : ℤ, c = m * (2 : ℝ) ^ e)
    (hb : (x.map abs).sum ≤ 2 ^ prec * (2 : ℝ) ^ e) (w : ℝ) : Mem (arb A x prec) w ↔ w = x.sum := by
  have := toArb_point P (prec := prec) (e := e) x.reverse P.zero ⟨0, by simp⟩ (fun c hc => hx c (by simpa using hc))
    (by rw [List.map_reverse, List.sum_reverse, abs_zero, zero_add]; exact hb) w
  rwa [zero_add, List.sum_reverse] at this

theorem toArb_sum (x : List ℝ) (a : ℝ) : x.foldl (fun a t => a + t) a = a + x.sum := by
  induction x generalizing a with
  | nil => simp
  | cons t x ih => rw [List.foldl_cons, ih, List.sum_cons, add_assoc]

/-- **C77.** The exact conversions give the value and nothing else. -/
theorem C77_exact (P : Promise A Mem) (x : List ℝ) : exactArf x = x.sum ∧ ∀ w, Mem (exactArb A x) w ↔ w = x.sum := by
  have h : exactArf x = x.sum := by rw [exactArf, toArb_sum, zero_add]
  exact ⟨h, fun w => by rw [exactArb, P.ofReal, h]⟩

/-! ## Statistics of a polynomial -/

theorem toArb_stats (l : List A.Ball) (s : EReal × EReal × EReal) :
    l.foldl (statsStep A) s =
      ((l.map fun c => A.lbound c 200).foldl min s.1, (l.map fun c => A.ubound c 200).foldl max s.2.1, (l.map A.radius).foldl max s.2.2) := by
  induction l generalizing s with
  | nil => rfl
  | cons c l ih => rw [List.foldl_cons, ih]; rfl

theorem toArb_min (l : List EReal) (a : EReal) : (l.foldl min a ≤ a ∧ ∀ c ∈ l, l.foldl min a ≤ c) ∧ (l.foldl min a = a ∨ l.foldl min a ∈ l) := by
  induction l generalizing a with
  | nil => simp
  | cons t l ih =>
    obtain ⟨⟨h1, h2⟩, h3⟩ := ih (min a t)
    rw [List.foldl_cons]
    refine ⟨⟨h1.trans (min_le_left _ _), fun c hc => ?_⟩, ?_⟩
    · rcases List.mem_cons.mp hc with rfl | hc
      · exact h1.trans (min_le_right _ _)
      · exact h2 c hc
    · rcases h3 with h3 | h3
      · rcases min_choice a t with h | h
        · left; rw [h3, h]
        · right; rw [h3, h]; simp
      · right; simp [h3]

theorem toArb_max (l : List EReal) (a : EReal) : (a ≤ l.foldl max a ∧ ∀ c ∈ l, c ≤ l.foldl max a) ∧ (l.foldl max a = a ∨ l.foldl max a ∈ l) := by
  induction l generalizing a with
  | nil => simp
  | cons t l ih =>
    obtain ⟨⟨h1, h2⟩, h3⟩ := ih (max a t)
    rw [List.foldl_cons]
    refine ⟨⟨(le_max_left _ _).trans h1, fun c hc => ?_⟩, ?_⟩
    · rcases List.mem_cons.mp hc with rfl | hc
      · exact (le_max_right _ _).trans h1
      · exact h2 c hc
    · rcases h3 with h3 | h3
      · rcases max_choice a t with h | h
        · left; rw [h3, h]
        · right; rw [h3, h]; simp
      · right; simp [h3]

theorem toArb_least {l : List EReal} (h : l ≠ []) : l.foldl min ⊤ ∈ l := by
  rcases (toArb_min l ⊤).2 with h1 | h1
  · obtain ⟨c, hc⟩ := List.exists_mem_of_ne_nil l h
    have := (toArb_min l ⊤).1.2 c hc
    rw [h1, top_le_iff] at this
    rw [h1, ← this]; exact hc
  · exact h1

theorem toArb_greatest {l : List EReal} (h : l ≠ []) : l.foldl max ⊥ ∈ l := by
  rcases (toArb_max l ⊥).2 with h1 | h1
  · obtain ⟨c, hc⟩ := List.exists_mem_of_ne_nil l h
    have := (toArb_max l ⊥).1.2 c hc
    rw [h1, le_bot_iff] at this
    rw [h1, ← this]; exact hc
  · exact h1

/-- **C77.** The printed range contains everything that the coefficients can be, and the printed radius is enough for each of them. -/
theorem C77_stats (P : Promise A Mem) {l : List A.Ball} {c : A.Ball} (hc : c ∈ l) {u v : ℝ} (hu : Mem c u) (hv : Mem c v) :
    (stats A l).lo ≤ u ∧ (u : EReal) ≤ (stats A l).hi ∧ ((|u - v| : ℝ) : EReal) ≤ (stats A l).radius + (stats A l).radius ∧
      (stats A l).degree + 1 = l.length := by
  unfold stats
  rw [toArb_stats]
  refine ⟨?_, ?_, ?_, by simp⟩
  · exact ((toArb_min _ _).1.2 _ (List.mem_map_of_mem hc)).trans (P.lower _ _ _ hu)
  · exact (P.upper _ _ _ hu).trans ((toArb_max _ _).1.2 _ (List.mem_map_of_mem hc))
  · exact (P.radius _ _ _ hu hv).trans (add_le_add ((toArb_max _ _).1.2 _ (List.mem_map_of_mem hc)) ((toArb_max _ _).1.2 _ (List.mem_map_of_mem hc)))

/-- **C77.** The printed numbers are those of coefficients; for the polynomial without coefficients the range is empty. -/
theorem C77_stats_tight (l : List A.Ball) :
    (l ≠ [] → (∃ c ∈ l, (stats A l).lo = A.lbound c 200) ∧ (∃ c ∈ l, (stats A l).hi = A.ubound c 200) ∧ ∃ c ∈ l, (stats A l).radius = A.radius c) ∧
      (l = [] → stats A l = ⟨-1, ⊤, ⊥, ⊥⟩) := by
  refine ⟨fun h => ?_, fun h => by subst h; rfl⟩
  unfold stats
  rw [toArb_stats]
  have key {f : A.Ball → EReal} {z : EReal} (hz : z ∈ l.map f) : ∃ c ∈ l, z = f c := by
    obtain ⟨c, hc, rfl⟩ := List.mem_map.mp hz
    exact ⟨c, hc, rfl⟩
  exact ⟨key (toArb_least (by simpa using h)), key (toArb_greatest (by simpa using h)), key (toArb_greatest (by simpa using h))⟩

/-! ## Comparison with the areas of Bittner et al. -/

/-- **C77.** The lines printed in a step: for the second pass only, the table entries between half of the terms and all of them, in order. -/
theorem C77_reports (table : List Bittner) (k : ℕ) (refine : Bool) (area : ℕ → List ℝ) (t : ℕ) :
    (∃ r ∈ reports A table (k + 1) refine area, r.terms = t) ↔ refine = true ∧ (∃ b ∈ table, b.terms = t) ∧ 2 ^ k ≤ t ∧ t ≤ 2 ^ (k + 1) := by
  have h2 : 2 ^ (k + 1) / 2 = 2 ^ k := by rw [pow_succ]; omega
  cases refine with
  | false => simp [reports]
  | true =>
    simp only [reports, h2, if_true, List.mem_map, List.mem_filter, Bool.and_eq_true, decide_eq_true_eq, true_and]
    constructor
    · rintro ⟨r, ⟨b, ⟨hb, h3, h4⟩, rfl⟩, rfl⟩
      exact ⟨⟨b, hb, rfl⟩, h3, h4⟩
    · rintro ⟨⟨b, hb, rfl⟩, h3, h4⟩
      exact ⟨_, ⟨b, ⟨hb, h3, h4⟩, rfl⟩, rfl⟩

/-- **C77.** The lines have the order of the table and each entry has at most one line. -/
theorem C77_order (table : List Bittner) (k : ℕ) (refine : Bool) (area : ℕ → List ℝ) :
    ((reports A table k refine area).map fun r => (⟨r.terms, r.value⟩ : Bittner)).Sublist table := by
  cases refine with
  | false => simp [reports]
  | true =>
    simp only [reports, if_true, List.map_map]
    exact (List.map_id _).symm ▸ List.filter_sublist

/-- **C77.** Each line shows an entry of the table, the area from that many terms, and a bound for the distance of the two. -/
theorem C77_report (P : Promise A Mem) {table : List Bittner} {k : ℕ} {refine : Bool} {area : ℕ → List ℝ} {r : Report}
    (hr : r ∈ reports A table k refine area) :
    ⟨r.terms, r.value⟩ ∈ table ∧ r.ours = area r.terms ∧ ((|(area r.terms).sum - r.value| : ℝ) : EReal) ≤ r.error := by
  cases refine with
  | false => simp [reports] at hr
  | true =>
    simp only [reports, if_true, List.mem_map, List.mem_filter] at hr
    obtain ⟨b, ⟨hb, _⟩, rfl⟩ := hr
    exact ⟨hb, rfl, P.bound _ _ (P.sub _ _ _ _ _ (((C77_exact P _).2 _).mpr rfl) ((P.ofReal _ _).mpr rfl))⟩

/-- **C77.** An entry whose number of terms is no power of two is reported in one step only. -/
theorem C77_once (table : List Bittner) (area : ℕ → List ℝ) {t : ℕ} (ht : ∃ b ∈ table, b.terms = t) (h1 : 1 ≤ t) (h2 : ∀ j, t ≠ 2 ^ j) :
    ∃! k, ∃ r ∈ reports A table (k + 1) true area, r.terms = t := by
  refine ⟨Nat.log 2 t, (C77_reports _ _ _ _ _).mpr ⟨rfl, ht, Nat.pow_log_le_self 2 (by omega), (Nat.lt_pow_succ_log_self (by norm_num) t).le⟩, ?_⟩
  intro k hk
  obtain ⟨_, _, h3, h4⟩ := (C77_reports _ _ _ _ _).mp hk
  exact (Nat.log_eq_of_pow_le_of_lt_pow h3 (lt_of_le_of_ne h4 (h2 _))).symm

/-- **C77.** An entry with a power of two is reported in two steps. -/
theorem C77_twice (table : List Bittner) (area : ℕ → List ℝ) {j : ℕ} (ht : ∃ b ∈ table, b.terms = 2 ^ (j + 1)) (k : ℕ) :
    (∃ r ∈ reports A table (k + 1) true area, r.terms = 2 ^ (j + 1)) ↔ k = j ∨ k = j + 1 := by
  rw [C77_reports]
  have a1 : (2 ^ k ≤ 2 ^ (j + 1)) ↔ k ≤ j + 1 := Nat.pow_le_pow_iff_right (by norm_num)
  have a2 : (2 ^ (j + 1) ≤ 2 ^ (k + 1)) ↔ j + 1 ≤ k + 1 := Nat.pow_le_pow_iff_right (by norm_num)
  rw [a1, a2]
  constructor
  · rintro ⟨_, _, h1, h2⟩; omega
  · intro h; exact ⟨rfl, ht, by omega, by omega⟩

/-- **C77.** Every entry of the table in the code is reported in one step only. -/
theorem C77_table {table : List Bittner} (h : table.map Bittner.terms = bittnerTerms) (area : ℕ → List ℝ) {b : Bittner} (hb : b ∈ table) :
    ∃! k, ∃ r ∈ reports A table (k + 1) true area, r.terms = b.terms := by
  have hm : b.terms ∈ bittnerTerms := h ▸ List.mem_map_of_mem hb
  have h5 : ∀ t ∈ bittnerTerms, 1 ≤ t ∧ 5 ∣ t := by decide
  obtain ⟨p1, p2⟩ := h5 _ hm
  refine C77_once table area ⟨b, hb, rfl⟩ p1 fun j hj => ?_
  rw [hj] at p2
  have := Nat.Prime.dvd_of_dvd_pow (by norm_num : Nat.Prime 5) p2
  omega

/-! ## Cases -/

namespace Arbs

open Classical in
/-- An arithmetic that keeps the promise: midpoint and radius; a sum with too many bits becomes a ball around zero. -/
noncomputable def crude : Ops where
  Ball := ℝ × ℝ
  zero := (0, 0)
  ofReal a := (a, 0)
  add a b prec := if Bits prec (a.1 + b.1) then (a.1 + b.1, a.2 + b.2) else (0, |a.1 + b.1| + (a.2 + b.2))
  sub a b _ := (a.1 - b.1, a.2 + b.2)
  bound b := ((|b.1| + b.2 : ℝ) : EReal)
  lbound b _ := ((b.1 - b.2 : ℝ) : EReal)
  ubound b _ := ((b.1 + b.2 : ℝ) : EReal)
  radius b := ((b.2 : ℝ) : EReal)

/-- The numbers in a ball. -/
def crudeMem (b : crude.Ball) (v : ℝ) : Prop := |v - (show ℝ × ℝ from b).1| ≤ (show ℝ × ℝ from b).2

theorem crude_point {b : ℝ × ℝ} {u : ℝ} (h : ∀ w, crudeMem b w ↔ w = u) : b = (u, 0) := by
  have h1 : |u - b.1| ≤ b.2 := (h u).mpr rfl
  have h0 : 0 ≤ b.2 := (abs_nonneg _).trans h1
  have h2 : b.1 = u := (h b.1).mp (by show |b.1 - b.1| ≤ b.2; simpa using h0)
  have h3 : b.1 + b.2 = u := (h _).mp (by show |b.1 + b.2 - b.1| ≤ b.2; rw [add_sub_cancel_left, abs_of_nonneg h0])
  exact Prod.ext h2 (by show b.2 = 0; linarith)

theorem crude_promise : Promise crude crudeMem where
  zero v := by show |v - 0| ≤ 0 ↔ v = 0; rw [abs_nonpos_iff, sub_zero]
  ofReal a v := by show |v - a| ≤ 0 ↔ v = a; rw [abs_nonpos_iff, sub_eq_zero]
  add a b prec u v := by
    obtain ⟨a1, a2⟩ := a
    obtain ⟨b1, b2⟩ := b
    intro (h1 : |u - a1| ≤ a2) (h2 : |v - b1| ≤ b2)
    have h3 : |(u + v) - (a1 + b1)| ≤ a2 + b2 := by
      rw [show (u + v) - (a1 + b1) = (u - a1) + (v - b1) by ring]
      exact (abs_add_le _ _).trans (add_le_add h1 h2)
    simp only [crude, crudeMem]
    split
    · exact h3
    · show |u + v - 0| ≤ |a1 + b1| + (a2 + b2)
      rw [show u + v - 0 = (a1 + b1) + ((u + v) - (a1 + b1)) by ring]
      exact (abs_add_le _ _).trans (by linarith)
  sub a b prec u v := by
    obtain ⟨a1, a2⟩ := a
    obtain ⟨b1, b2⟩ := b
    intro (h1 : |u - a1| ≤ a2) (h2 : |v - b1| ≤ b2)
    show |(u - v) - (a1 - b1)| ≤ a2 + b2
    rw [show (u - v) - (a1 - b1) = (u - a1) - (v - b1) by ring]
    exact (abs_sub _ _).trans (add_le_add h1 h2)
  point a b prec u v ha hb hbits w := by
    rw [crude_point ha, crude_point hb]
    simp only [crude, crudeMem]
    rw [if_pos hbits]
    show |w - (u + v)| ≤ 0 + 0 ↔ _
    rw [add_zero, abs_nonpos_iff, sub_eq_zero]
  bound b v := by
    obtain ⟨b1, b2⟩ := b
    intro (h : |v - b1| ≤ b2)
    refine EReal.coe_le_coe_iff.mpr ?_
    show |v| ≤ |b1| + b2
    rw [show v = b1 + (v - b1) by ring]
    exact (abs_add_le _ _).trans (by linarith)
  lower b prec v := by
    obtain ⟨b1, b2⟩ := b
    intro (h : |v - b1| ≤ b2)
    refine EReal.coe_le_coe_iff.mpr ?_
    show b1 - b2 ≤ v
    linarith [(abs_le.mp h).1]
  upper b prec v := by
    obtain ⟨b1, b2⟩ := b
    intro (h : |v - b1| ≤ b2)
    refine EReal.coe_le_coe_iff.mpr ?_
    show v ≤ b1 + b2
    linarith [(abs_le.mp h).2]
  radius b u v := by
    obtain ⟨b1, b2⟩ := b
    intro (h1 : |u - b1| ≤ b2) (h2 : |v - b1| ≤ b2)
    show ((|u - v| : ℝ) : EReal) ≤ ((b2 : ℝ) : EReal) + ((b2 : ℝ) : EReal)
    rw [← EReal.coe_add]
    refine EReal.coe_le_coe_iff.mpr ?_
    rw [show u - v = (u - b1) - (v - b1) by ring]
    exact (abs_sub _ _).trans (add_le_add h1 h2)

end Arbs

/-- `1 + 2^-60` is a point at 61 bits. -/
example (w : ℝ) : crudeMem (arb crude [1, (2 : ℝ) ^ (-60 : ℤ)] 61) w ↔ w = 1 + (2 : ℝ) ^ (-60 : ℤ) := by
  have := C77_arb_exact crude_promise (x := [1, (2 : ℝ) ^ (-60 : ℤ)]) (prec := 61) (-60) (by
    intro c hc
    rcases List.mem_pair.mp hc with rfl | rfl
    · exact ⟨2 ^ 60, by norm_num⟩
    · exact ⟨1, by norm_num⟩) (by norm_num) w
  simpa using this

/-- The statistics of `(3 ± 1) + (-5 ± 2) z`: the range contains 4 and -7. -/
example : (stats crude [((3 : ℝ), (1 : ℝ)), ((-5 : ℝ), (2 : ℝ))]).lo ≤ ((-7 : ℝ) : EReal) ∧
    ((4 : ℝ) : EReal) ≤ (stats crude [((3 : ℝ), (1 : ℝ)), ((-5 : ℝ), (2 : ℝ))]).hi := by
  have m1 : crudeMem ((-5 : ℝ), (2 : ℝ)) (-7) := by show |(-7 : ℝ) - -5| ≤ 2; norm_num [abs_le]
  have m2 : crudeMem ((3 : ℝ), (1 : ℝ)) 4 := by show |(4 : ℝ) - 3| ≤ 1; norm_num [abs_le]
  exact ⟨(C77_stats crude_promise (.tail _ (.head _)) m1 m1).1, (C77_stats crude_promise (.head _) m2 m2).2.1⟩

/-- With the numbers of terms in the code, one step reports a million terms. -/
example : ∃! k, ∃ r ∈ reports crude (bittnerTerms.map fun t => ⟨t, 17 / 10⟩) (k + 1) true (fun _ => [1.7, 0]), r.terms = 1000000 :=
  C77_table (by rw [List.map_map]; exact List.map_id _) _ (b := ⟨1000000, 17 / 10⟩) (List.mem_map.mpr ⟨1000000, by decide, rfl⟩)

end Mandelbrot.Props
