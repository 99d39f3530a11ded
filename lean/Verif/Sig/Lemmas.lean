import Verif.Sig.Model
import Mathlib.Data.ZMod.Basic
import Mathlib.FieldTheory.Finite.Basic
import Mathlib.NumberTheory.LegendreSymbol.Basic
import Mathlib.Algebra.QuadraticAlgebra.Basic
import Mathlib.Algebra.CharP.Lemmas
import Mathlib.Algebra.CharP.Algebra
import Mathlib.Tactic.IntervalCases

/-!
# Lemmas about modular arithmetic
-/

namespace Mandelbrot.Sig

/-! ## Powers -/

theorem powLoop_hom {T M : Type} [CommMonoid M] {mul : T → T → T} {P : T → Prop} {f : T → M}
    (h : ∀ a b, P a → P b → P (mul a b) ∧ f (mul a b) = f a * f b) : ∀ (bits n : ℕ) (r a : T), n < 2 ^ bits → P r → P a →
    P (powLoop mul bits r a n) ∧ f (powLoop mul bits r a n) = f r * f a ^ n := by
  intro bits
  induction bits with
  | zero => intro n r a hn hr ha; obtain rfl : n = 0 := by omega
            exact ⟨hr, by simp [powLoop]⟩
  | succ bits ih =>
    intro n r a hn hr ha
    rw [powLoop]
    split_ifs with h0 h1
    · subst h0; exact ⟨hr, by simp⟩
    · obtain ⟨i1, i2⟩ := ih (n / 2) (mul r a) (mul a a) (by omega) (h r a hr ha).1 (h a a ha ha).1
      refine ⟨i1, ?_⟩
      rw [i2, (h r a hr ha).2, (h a a ha ha).2, ← pow_two, ← pow_mul, mul_assoc, ← pow_succ']
      congr 2; omega
    · obtain ⟨i1, i2⟩ := ih (n / 2) r (mul a a) (by omega) hr (h a a ha ha).1
      refine ⟨i1, ?_⟩
      rw [i2, (h a a ha ha).2, ← pow_two, ← pow_mul]
      congr 2; omega

/-! ## Operations -/

section
variable {p : ℕ}

theorem add_cast (a b : ℕ) : (add p a b : ZMod p) = a + b := by
  rw [add, ZMod.natCast_mod, Nat.cast_add]

theorem mul_cast (a b : ℕ) : (mul p a b : ZMod p) = a * b := by
  rw [mul, ZMod.natCast_mod, Nat.cast_mul]

theorem sub_cast {a b : ℕ} (hp : p < 2 ^ 64) (ha : a < 2 ^ 64) (hb : b ≤ a + p) : (sub p a b : ZMod p) = a - b := by
  rw [sub, ZMod.natCast_mod, show a + p + 2 ^ 128 - b = (a + p - b) + 2 ^ 128 by omega, Nat.add_mod_right,
    Nat.mod_eq_of_lt (by omega), Nat.cast_sub hb]
  simp

theorem neg_eq {a : ℕ} (hp : p < 2 ^ 64) (ha : a ≤ p) : neg p a = if a = 0 then 0 else p - a := by
  unfold neg
  by_cases h0 : a = 0
  · simp [h0]
  · rw [if_pos h0, if_neg h0, show p + 2 ^ 64 - a = (p - a) + 2 ^ 64 by omega, Nat.add_mod_right, Nat.mod_eq_of_lt (by omega)]

theorem neg_cast {a : ℕ} (hp : p < 2 ^ 64) (ha : a ≤ p) : (neg p a : ZMod p) = -a := by
  rw [neg_eq hp ha]
  split_ifs with h
  · simp [h]
  · rw [Nat.cast_sub ha]; simp

theorem neg_lt {a : ℕ} (hp : p < 2 ^ 64) (ha : a < p) : neg p a < p := by
  rw [neg_eq hp ha.le]; split_ifs <;> omega

theorem pow_cast {a n : ℕ} (hn : n < 2 ^ 64) : ((pow (mul p) 1 a n : ℕ) : ZMod p) = (a : ZMod p) ^ n := by
  have := (powLoop_hom (mul := mul p) (P := fun _ => True) (f := fun a => (a : ZMod p))
    (fun a b _ _ => ⟨trivial, mul_cast a b⟩) 64 n 1 a hn trivial trivial).2
  rw [pow, this]; simp

theorem pow_lt (hp : 1 < p) {a n : ℕ} (ha : a < p) (hn : n < 2 ^ 64) : pow (mul p) 1 a n < p :=
  (powLoop_hom (mul := mul p) (P := fun a => a < p) (f := fun a => (a : ZMod p))
    (fun a b _ _ => ⟨Nat.mod_lt _ (by omega), mul_cast a b⟩) 64 n 1 a hn hp ha).1

theorem pow_lt' (hp : 1 < p) {a n : ℕ} (h0 : n ≠ 0) (hn : n < 2 ^ 64) : pow (mul p) 1 a n < p := by
  have key : ∀ bits n r a : ℕ, n < 2 ^ bits → n ≠ 0 → powLoop (mul p) bits r a n < p := by
    intro bits
    induction bits with
    | zero => intro n r a h h0; omega
    | succ bits ih =>
      intro n r a h h0
      rw [powLoop, if_neg h0]
      by_cases h2 : n / 2 = 0
      · have : n = 1 := by omega
        subst this
        cases bits with
        | zero => simp only [powLoop]; exact Nat.mod_lt _ (by omega)
        | succ b => simp only [powLoop]; exact Nat.mod_lt _ (by omega)
      · exact ih _ _ _ (by omega) h2
  exact key 64 n 1 a hn h0

theorem eq_of_cast {a b : ℕ} (ha : a < p) (hb : b < p) (h : (a : ZMod p) = b) : a = b := by
  rw [ZMod.natCast_eq_natCast_iff, Nat.ModEq, Nat.mod_eq_of_lt ha, Nat.mod_eq_of_lt hb] at h
  exact h

theorem pred_cast (hp : 0 < p) : ((p - 1 : ℕ) : ZMod p) = -1 := by
  rw [Nat.cast_sub hp]; simp

/-! ## Primality -/

theorem ctz_spec : ∀ (bits m : ℕ), 0 < m → m < 2 ^ bits → ctz bits m < bits ∧ 2 ^ ctz bits m ∣ m ∧ m / 2 ^ ctz bits m % 2 = 1 := by
  intro bits
  induction bits with
  | zero => intro m h0 h1; omega
  | succ bits ih =>
    intro m h0 h1
    rw [ctz]
    split_ifs with h
    · exact ⟨by omega, one_dvd _, by simpa using h⟩
    · obtain ⟨i1, i2, i3⟩ := ih (m / 2) (by omega) (by omega)
      refine ⟨by omega, ?_, ?_⟩
      · rw [pow_succ']
        obtain ⟨c, hc⟩ := i2
        exact ⟨c, by rw [mul_assoc, ← hc]; omega⟩
      · rw [pow_succ', ← Nat.div_div_eq_div_mul]; exact i3

theorem sprpLoop_true [Fact p.Prime] : ∀ (s x : ℕ), x < p → (x : ZMod p) ^ 2 ^ s = 1 → x ≠ 1 → sprpLoop p s x = true := by
  have hp := (Fact.out : p.Prime)
  intro s
  induction s with
  | zero =>
    intro x hx h h1
    rw [pow_zero, pow_one] at h
    exact absurd (eq_of_cast hx hp.one_lt (by simpa using h)) h1
  | succ s ih =>
    intro x hx h h1
    rw [sprpLoop]
    split_ifs with h2
    · rfl
    · refine ih _ (Nat.mod_lt _ hp.pos) ?_ ?_
      · rw [mul_cast, ← pow_two, ← pow_mul, ← pow_succ']; exact h
      · intro e
        have e' : (x : ZMod p) * x = 1 := by rw [← mul_cast, e]; simp
        rcases mul_self_eq_one_iff.mp e' with h' | h'
        · exact h1 (eq_of_cast hx hp.one_lt (by simpa using h'))
        · exact h2 (eq_of_cast hx (by have := hp.pos; omega) (by rw [h', pred_cast hp.pos]))

theorem sprpLoop_zero (hp : 1 < p) : ∀ s, sprpLoop p s 0 = false := by
  intro s
  induction s with
  | zero => rfl
  | succ s ih => rw [sprpLoop, if_neg (by omega)]; simpa [mul] using ih

/-- `is_sprp` of a prime. -/
theorem isSprp_prime (hp : p.Prime) (h2 : p ≠ 2) (h64 : p < 2 ^ 64) {a : ℕ} (ha : 2 ≤ a) :
    isSprp p a = .ok (decide (p = a ∨ ¬p ∣ a)) := by
  have := Fact.mk hp
  have hpos := hp.pos
  have h3 : 3 ≤ p := by have := hp.two_le; omega
  rw [isSprp, if_neg hpos.ne']
  split_ifs with h0
  · have hd : a ∣ p := Nat.dvd_of_mod_eq_zero h0
    have : a = p := ((Nat.dvd_prime hp).mp hd).resolve_left (by omega)
    simp [this]
  · have hne : p ≠ a := by rintro rfl; simp at h0
    obtain ⟨c1, c2, c3⟩ := ctz_spec 64 (p - 1) (by omega) (by omega)
    simp only
    set s := ctz 64 (p - 1) with hs
    rw [if_neg (by omega)]
    set d := (p - 1) / 2 ^ s with hd
    have hdm : d * 2 ^ s = p - 1 := Nat.div_mul_cancel c2
    have hdlt : d < 2 ^ 64 := lt_of_le_of_lt (Nat.div_le_self _ _) (by omega)
    have hxc := pow_cast (p := p) (a := a) hdlt
    have hxl : pow (mul p) 1 a d < p := pow_lt' hp.one_lt (by omega) hdlt
    congr 1
    by_cases hda : p ∣ a
    · have hz : pow (mul p) 1 a d = 0 := by
        refine eq_of_cast hxl hpos ?_
        rw [hxc, (ZMod.natCast_eq_zero_iff a p).mpr hda, zero_pow (by omega)]; simp
      rw [hz, if_neg (by omega), sprpLoop_zero hp.one_lt]
      simp [hne, hda]
    · have : (if pow (mul p) 1 a d = 1 then true else sprpLoop p s (pow (mul p) 1 a d)) = true := by
        split_ifs with h1
        · rfl
        · refine sprpLoop_true s _ hxl ?_ h1
          rw [hxc, ← pow_mul, hdm]
          exact ZMod.pow_card_sub_one_eq_one (by rwa [Ne, ZMod.natCast_eq_zero_iff])
      rw [this]
      simp [hda]

/-! ## Square roots -/

theorem hasSqrt_prime [Fact p.Prime] (h2 : p ≠ 2) (h64 : p < 2 ^ 64) {a : ℕ} (ha : a < p) [Decidable (IsSquare (a : ZMod p))] :
    hasSqrt p a = .ok (decide (IsSquare (a : ZMod p))) := by
  have hp := (Fact.out : p.Prime)
  have hodd : p % 2 = 1 := hp.eq_two_or_odd.resolve_left h2
  have h3 : 3 ≤ p := by have := hp.two_le; omega
  unfold hasSqrt
  split_ifs with h0
  · subst h0; simp; rfl
  · have hn : (p - 1) / 2 < 2 ^ 64 := by omega
    have ha0 : (a : ZMod p) ≠ 0 := by
      rw [Ne, ZMod.natCast_eq_zero_iff]; exact fun h => h0 (Nat.eq_zero_of_dvd_of_lt h ha)
    have hc := pow_cast (p := p) (a := a) hn
    have hl := pow_lt (p := p) hp.one_lt ha hn
    have hdiv : (p - 1) / 2 = p / 2 := by omega
    have hneg : neg p 1 = p - 1 := by rw [neg_eq h64 (by omega)]; simp
    have hor : pow (mul p) 1 a ((p - 1) / 2) = 1 ∨ pow (mul p) 1 a ((p - 1) / 2) = neg p 1 := by
      rcases ZMod.pow_div_two_eq_neg_one_or_one p ha0 with h | h
      · left; refine eq_of_cast hl hp.one_lt ?_; rw [hc, hdiv, h]; simp
      · right; rw [hneg]; refine eq_of_cast hl (by omega) ?_; rw [hc, hdiv, h, pred_cast hp.pos]
    extract_lets s
    rw [slowAssert_true (show s = 1 ∨ s = neg p 1 from hor), bok, pok]
    refine congrArg Except.ok (decide_eq_decide.mpr ?_)
    rw [ ZMod.euler_criterion p ha0]
    constructor
    · intro h; rw [← hdiv, ← hc, show pow (mul p) 1 a ((p - 1) / 2) = 1 from h]; simp
    · intro h; refine eq_of_cast hl hp.one_lt ?_; rw [hc, hdiv, h]; simp

end

end Mandelbrot.Sig
