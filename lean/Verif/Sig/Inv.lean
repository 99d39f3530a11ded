import Verif.Sig.Lemmas

/-!
# Lemmas about the modular inverse and the square root
-/

namespace Mandelbrot.Sig

theorem sub_lt {p : ℕ} (hp : 0 < p) (a b : ℕ) : sub p a b < p := by
  unfold sub; exact Nat.mod_lt _ hp

theorem mul_lt {p : ℕ} (hp : 0 < p) (a b : ℕ) : mul p a b < p := by
  unfold mul; exact Nat.mod_lt _ hp

theorem add_lt {p : ℕ} (hp : 0 < p) (a b : ℕ) : add p a b < p := by
  unfold add; exact Nat.mod_lt _ hp

/-! ## Inverse -/

theorem i128_ok {z : ℤ} (h1 : -2 ^ 127 ≤ z) (h2 : z < 2 ^ 127) : i128 z = .ok z := if_pos ⟨h1, h2⟩

/-- The invariant of the loop; the coefficients alternate in sign. -/
structure EInv (p x : ℕ) (e : Euclid) (ε A A' B B' : ℤ) : Prop where
  sign : ε = 1 ∨ ε = -1
  sp : e.sp = ε * A'
  s : e.s = -ε * A
  tp : e.tp = -ε * B'
  t : e.t = ε * B
  rp0 : 0 ≤ e.rp
  r0 : 0 ≤ e.r
  a0 : 0 ≤ A
  a0' : 0 ≤ A'
  b0 : 0 ≤ B
  b0' : 0 ≤ B'
  hp : e.rp * A + e.r * A' = p
  hx : e.rp * B + e.r * B' = x
  hrp : e.rp = ε * (A' * x - B' * p)
  hr : e.r = ε * (B * p - A * x)
  ha : A ≤ p
  hb : B ≤ x + 1
  rp64 : e.rp < 2 ^ 64
  g : Int.gcd e.rp e.r = Nat.gcd x p

theorem euclidStep_inv {p x : ℕ} (hp : p < 2 ^ 64) (hx : x < 2 ^ 64) {e : Euclid} {ε A A' B B' : ℤ}
    (h : EInv p x e ε A A' B B') (hr : e.r ≠ 0) (h64 : e.r < 2 ^ 64) :
    ∃ e' q, euclidStep e = .ok e' ∧ EInv p x e' (-ε) (A' + q * A) A (B' + q * B) B ∧ e'.rp = e.r ∧ e'.r < e.r := by
  have hr1 : 0 < e.r := lt_of_le_of_ne h.r0 (Ne.symm hr)
  set q := e.rp / e.r with hq
  have hq0 : 0 ≤ q := Int.ediv_nonneg h.rp0 h.r0
  have hqt : e.rp.tdiv e.r = q := Int.tdiv_eq_ediv_of_nonneg h.rp0
  have hmod : e.rp - q * e.r = e.rp % e.r := by rw [hq]; have := Int.emod_add_mul_ediv e.rp e.r; linarith [mul_comm e.r (e.rp / e.r)]
  have hm0 := Int.emod_nonneg e.rp hr
  have hm1 := Int.emod_lt_of_pos e.rp hr1
  have hqr : q * e.r ≤ e.rp := by rw [← hmod] at hm0; linarith
  have hqr0 : 0 ≤ q * e.r := mul_nonneg hq0 h.r0
  have hqA : 0 ≤ q * A := mul_nonneg hq0 h.a0
  have hqB : 0 ≤ q * B := mul_nonneg hq0 h.b0
  have hA : A' + q * A ≤ p := by
    have h1 : e.r * (A' + q * A) ≤ p := by
      have : e.r * (A' + q * A) + (e.rp - q * e.r) * A = p := by linear_combination h.hp
      have h2 := mul_nonneg hm0 h.a0
      rw [← hmod] at h2
      linarith
    have h2 : 0 ≤ A' + q * A := add_nonneg h.a0' hqA
    nlinarith
  have hB : B' + q * B ≤ x := by
    have h1 : e.r * (B' + q * B) ≤ x := by
      have : e.r * (B' + q * B) + (e.rp - q * e.r) * B = x := by linear_combination h.hx
      have h2 := mul_nonneg hm0 h.b0
      rw [← hmod] at h2
      linarith
    have h2 : 0 ≤ B' + q * B := add_nonneg h.b0' hqB
    nlinarith
  have ha0' := h.a0'
  have hb0' := h.b0'
  have hrp64 := h.rp64
  have hpz : (p : ℤ) < 2 ^ 64 := by exact_mod_cast hp
  have hxz : (x : ℤ) < 2 ^ 64 := by exact_mod_cast hx
  have e1 : i128 (q * e.r) = .ok (q * e.r) := i128_ok (by linarith) (by linarith)
  have e2 : i128 (e.rp - q * e.r) = .ok (e.rp - q * e.r) := i128_ok (by linarith) (by linarith)
  have hs2 : e.sp - q * e.s = ε * (A' + q * A) := by rw [h.sp, h.s]; ring
  have ht2 : e.tp - q * e.t = -ε * (B' + q * B) := by rw [h.tp, h.t]; ring
  have e3 : i128 (q * e.s) = .ok (q * e.s) := by
    rw [h.s]
    rcases h.sign with rfl | rfl
    · exact i128_ok (by linarith) (by linarith)
    · exact i128_ok (by linarith) (by linarith)
  have e4 : i128 (e.sp - q * e.s) = .ok (e.sp - q * e.s) := by
    rw [hs2]
    rcases h.sign with rfl | rfl
    · exact i128_ok (by linarith) (by linarith)
    · exact i128_ok (by linarith) (by linarith)
  have e5 : i128 (q * e.t) = .ok (q * e.t) := by
    rw [h.t]
    rcases h.sign with rfl | rfl
    · exact i128_ok (by linarith) (by linarith)
    · exact i128_ok (by linarith) (by linarith)
  have e6 : i128 (e.tp - q * e.t) = .ok (e.tp - q * e.t) := by
    rw [ht2]
    rcases h.sign with rfl | rfl
    · exact i128_ok (by linarith) (by linarith)
    · exact i128_ok (by linarith) (by linarith)
  refine ⟨⟨e.r, e.rp - q * e.r, e.s, e.sp - q * e.s, e.t, e.tp - q * e.t⟩, q, ?_, ?_, rfl, by simp only; rw [hmod]; exact hm1⟩
  · simp only [euclidStep, hqt, e1, bok, e2, e3, e4, e5, e6, pok]
  · have hε : -ε = 1 ∨ -ε = -1 := by rcases h.sign with rfl | rfl <;> simp
    refine ⟨hε, h.s, ?_, ?_, ?_, h.r0, ?_, by linarith, h.a0, by linarith, h.b0, ?_, ?_, ?_, ?_, hA, by linarith, h64, ?_⟩
    · simp only; rw [hs2]; ring
    · simp only; rw [h.t]; ring
    · simp only; rw [ht2]
    · simp only; rw [hmod]; exact hm0
    · simp only; linear_combination h.hp
    · simp only; linear_combination h.hx
    · simp only; linear_combination h.hr
    · simp only
      have := h.hr
      have := h.hrp
      linear_combination h.hrp - q * h.hr
    · simp only
      rw [← h.g, Int.gcd_comm e.rp e.r]
      have := Int.gcd_add_mul_left_right e.r e.rp (-q)
      rw [← this]
      congr 1; ring

theorem euclidLoop_inv {p x : ℕ} (hp : p < 2 ^ 64) (hx : x < 2 ^ 64) : ∀ (n : ℕ) (e : Euclid) (ε A A' B B' : ℤ),
    EInv p x e ε A A' B B' → e.r < e.rp → 2 * A' ≤ p → 2 * B' ≤ x + 2 → e.r.toNat < n →
    ∃ e' ε A A' B B', euclidLoop n e = some (.ok e') ∧ EInv p x e' ε A A' B B' ∧ e'.r = 0 ∧ 2 * A' ≤ p ∧ 2 * B' ≤ x + 2 := by
  intro n
  induction n with
  | zero => intro e _ _ _ _ _ _ _ _ _ h; omega
  | succ n ih =>
    intro e ε A A' B B' h hlt hA hB hn
    rw [euclidLoop]
    split_ifs with hr
    · exact ⟨e, ε, A, A', B, B', rfl, h, hr, hA, hB⟩
    · have hr1 : 0 < e.r := lt_of_le_of_ne h.r0 (Ne.symm hr)
      obtain ⟨e', q, he, hi, h1, h2⟩ := euclidStep_inv hp hx h hr (hlt.trans h.rp64)
      rw [he]
      have hA2 : 2 * A ≤ p := by
        have := h.hp
        have h3 := mul_nonneg h.r0 h.a0'
        have := h.a0
        nlinarith
      have hB2 : 2 * B ≤ x := by
        have := h.hx
        have h3 := mul_nonneg h.r0 h.b0'
        have := h.b0
        nlinarith
      exact ih e' _ _ _ _ _ hi (by rw [h1]; exact h2) hA2 (by linarith) (by omega)

/-- `Fp::inv`: the inverse if there is one, otherwise an assertion; never undefined. -/
theorem inv_spec {p x : ℕ} (hp1 : 1 < p) (hp : p < 2 ^ 64) (hx : x < 2 ^ 64) {n : ℕ} (hn : p + 2 ≤ n) :
    if Nat.Coprime x p then ∃ r, inv n p x = some (.ok r) ∧ r < p ∧ (r * x) % p = 1 else inv n p x = some (.error .assertion) := by
  obtain ⟨m, rfl⟩ : ∃ m, n = m + 1 := ⟨n - 1, by omega⟩
  have hpz : (p : ℤ) < 2 ^ 64 := by exact_mod_cast hp
  have hxz : (x : ℤ) < 2 ^ 64 := by exact_mod_cast hx
  have hp1z : (1 : ℤ) < p := by exact_mod_cast hp1
  have h0 : EInv p x ⟨x, p, 1, 0, 0, 1⟩ 1 0 1 1 0 := by
    refine ⟨Or.inl rfl, rfl, by simp, by simp, by simp, by simp, by simp, le_rfl, by norm_num, by norm_num, le_rfl, ?_, ?_, ?_, ?_, by simp,
      by simp, by simpa using hxz, ?_⟩ <;> simp
  obtain ⟨e1, q, he, hi, h1, h2⟩ := euclidStep_inv hp hx h0 (by simp only; omega) (by simpa using hpz)
  simp only at h1 h2
  obtain ⟨e, ε, A, A', B, B', hl, hi, hr, hA, hB⟩ := euclidLoop_inv hp hx m e1 _ _ _ _ _ hi (by rw [h1]; exact h2) (by simp)
    (by have : (0 : ℤ) ≤ x := by positivity
        linarith) (by have := hi.r0; omega)
  have hloop : euclidLoop (m + 1) ⟨x, p, 1, 0, 0, 1⟩ = some (.ok e) := by
    rw [euclidLoop, if_neg (by simp only; omega), he]; exact hl
  have hinv : inv (m + 1) p x = some (invFinish p x e) := by rw [inv, hloop]
  have hg : e.rp = Nat.gcd x p := by
    have := hi.g
    rw [hr, Int.gcd_zero_right] at this
    have h0 := hi.rp0
    omega
  have hx0 : (0 : ℤ) ≤ x := by positivity
  have hA0 := hi.a0'
  have hB0 := hi.b0'
  have hAx : A' * x < 2 ^ 127 := by nlinarith
  have hBp : B' * p < 2 ^ 127 := by nlinarith
  have hAx0 : 0 ≤ A' * x := mul_nonneg hA0 hx0
  have hBp0 : 0 ≤ B' * p := mul_nonneg hB0 (by linarith)
  have hc : e.sp * x + e.tp * p = Nat.gcd x p := by rw [← hg, hi.hrp, hi.sp, hi.tp]; ring
  have i1 : i128 (e.sp * x) = .ok (e.sp * x) := by
    rw [hi.sp]
    rcases hi.sign with rfl | rfl
    · exact i128_ok (by linarith) (by linarith)
    · exact i128_ok (by linarith) (by linarith)
  have i2 : i128 (e.tp * p) = .ok (e.tp * p) := by
    rw [hi.tp]
    rcases hi.sign with rfl | rfl
    · exact i128_ok (by linarith) (by linarith)
    · exact i128_ok (by linarith) (by linarith)
  have hgle : (Nat.gcd x p : ℤ) < 2 ^ 127 := by
    have := Nat.gcd_le_right x (show 0 < p by omega)
    have : (Nat.gcd x p : ℤ) ≤ p := by exact_mod_cast this
    linarith
  have i3 : i128 (e.sp * x + e.tp * p) = .ok (Nat.gcd x p : ℤ) := by
    rw [hc]; exact i128_ok (by have : (0 : ℤ) ≤ Nat.gcd x p := by positivity
                               linarith) hgle
  rw [hinv]
  split_ifs with hcop
  · have hg1 : (Nat.gcd x p : ℤ) = 1 := by exact_mod_cast hcop
    rw [hg1] at hc
    set sp := if e.sp < 0 then e.sp + p else e.sp with hsp
    have hsp' : ∃ k : ℤ, sp = e.sp + k * p := by
      rw [hsp]; split_ifs
      · exact ⟨1, by ring⟩
      · exact ⟨0, by ring⟩
    obtain ⟨k, hk⟩ := hsp'
    have hsp0 : 0 ≤ sp ∧ sp < p := by
      rw [hsp, hi.sp]
      rcases hi.sign with rfl | rfl <;> split_ifs <;> constructor <;> linarith
    obtain ⟨s, hs⟩ := Int.eq_ofNat_of_zero_le hsp0.1
    have hslt : s < p := by rw [hs] at hsp0; exact_mod_cast hsp0.2
    have hmul : s * x % p = 1 := by
      have h1 : ((s * x : ℕ) : ℤ) = 1 + (k * x - e.tp) * p := by
        push_cast
        rw [show (s : ℤ) = sp from hs.symm, hk]
        linear_combination hc
      have h2 : ((s * x % p : ℕ) : ℤ) = 1 := by
        push_cast
        push_cast at h1
        rw [h1, Int.add_mul_emod_self_right, Int.emod_eq_of_lt (by norm_num) hp1z]
      exact_mod_cast h2
    refine ⟨s, ?_, hslt, hmul⟩
    have hcast : (sp % 2 ^ 64).toNat = s := by
      rw [Int.emod_eq_of_lt hsp0.1 (by linarith), hs]; rfl
    simp only [invFinish, i1, bok, i2, i3]
    rw [slowAssert_true hg1, bok, ← hsp, slowAssert_true (by exact hsp0.1), bok, hcast, slowAssert_true (by exact hmul), bok, pok]
  · simp only [invFinish, i1, bok, i2, i3]
    rw [slowAssert_false, berr]
    intro h
    exact hcop (by exact_mod_cast h)

/-! ## Square root -/

section
variable {p : ℕ} [hpf : Fact p.Prime]

open QuadraticAlgebra

/-- A pair as an element of `Z/p[√b]`. -/
def toQ (b : ZMod p) (x : ℕ × ℕ) : QuadraticAlgebra (ZMod p) b 0 := ⟨x.1, x.2⟩

theorem mul2_cast {b : ℕ} (x y : ℕ × ℕ) : toQ (b : ZMod p) (mul2 p b x y) = toQ (b : ZMod p) x * toQ (b : ZMod p) y := by
  ext
  · simp only [toQ, mul2, add_cast, mul_cast, re_mul]; ring
  · simp only [toQ, mul2, add_cast, mul_cast, im_mul]; ring

theorem pow2_spec {b n : ℕ} {x : ℕ × ℕ} (hn : n < 2 ^ 64) (hx1 : x.1 < p) (hx2 : x.2 < p) :
    (pow (mul2 p b) (1, 0) x n).1 < p ∧ (pow (mul2 p b) (1, 0) x n).2 < p ∧
      toQ (b : ZMod p) (pow (mul2 p b) (1, 0) x n) = toQ (b : ZMod p) x ^ n := by
  have hp := hpf.out
  have := powLoop_hom (mul := mul2 p b) (P := fun x => x.1 < p ∧ x.2 < p) (f := toQ (b : ZMod p))
    (fun x y _ _ => ⟨⟨add_lt hp.pos _ _, add_lt hp.pos _ _⟩, mul2_cast x y⟩) 64 n (1, 0) x hn ⟨hp.one_lt, hp.pos⟩ ⟨hx1, hx2⟩
  unfold pow
  refine ⟨this.1.1, this.1.2, ?_⟩
  rw [this.2]
  have : toQ (b : ZMod p) (1, 0) = 1 := by ext <;> simp [toQ]
  rw [this, one_mul]

/-- The norm argument of Cipolla's algorithm. -/
theorem cipolla {a b n : ZMod p} (h2 : p ≠ 2) (hb : ¬IsSquare b) (hab : b = a * a - n) :
    (⟨a, 1⟩ : QuadraticAlgebra (ZMod p) b 0) ^ (p + 1) = QuadraticAlgebra.C n := by
  have hp := hpf.out
  have hodd : p % 2 = 1 := hp.eq_two_or_odd.resolve_left h2
  have hb0 : b ≠ 0 := by rintro rfl; exact hb ⟨0, by simp⟩
  have : CharP (QuadraticAlgebra (ZMod p) b 0) p := by
    refine charP_of_injective_ringHom (f := algebraMap (ZMod p) (QuadraticAlgebra (ZMod p) b 0)) ?_ p
    intro x y h
    simpa using congrArg QuadraticAlgebra.re h
  have hsplit : (⟨a, 1⟩ : QuadraticAlgebra (ZMod p) b 0) = QuadraticAlgebra.C a + ⟨0, 1⟩ := by ext <;> simp
  have hw : (⟨0, 1⟩ : QuadraticAlgebra (ZMod p) b 0) ^ p = ⟨0, -1⟩ := by
    have h1 : (⟨0, 1⟩ : QuadraticAlgebra (ZMod p) b 0) ^ 2 = QuadraticAlgebra.C b := by
      rw [pow_two]; ext <;> simp
    have h3 : b ^ (p / 2) = -1 := by
      rcases ZMod.pow_div_two_eq_neg_one_or_one p hb0 with h | h
      · exact absurd ((ZMod.euler_criterion p hb0).mpr h) hb
      · exact h
    have h4 : (QuadraticAlgebra.C b : QuadraticAlgebra (ZMod p) b 0) ^ (p / 2) = QuadraticAlgebra.C (b ^ (p / 2)) := by
      exact (map_pow (algebraMap (ZMod p) (QuadraticAlgebra (ZMod p) b 0)) b (p / 2)).symm
    have h5 : (⟨0, 1⟩ : QuadraticAlgebra (ZMod p) b 0) ^ p = ⟨0, 1⟩ ^ (2 * (p / 2) + 1) :=
      congrArg (HPow.hPow (⟨0, 1⟩ : QuadraticAlgebra (ZMod p) b 0)) (show p = 2 * (p / 2) + 1 by omega)
    rw [h5, pow_succ, pow_mul, h1, h4, h3]
    ext <;> simp
  have hfrob : (⟨a, 1⟩ : QuadraticAlgebra (ZMod p) b 0) ^ p = ⟨a, -1⟩ := by
    rw [hsplit, add_pow_char, hw, show (QuadraticAlgebra.C a : QuadraticAlgebra (ZMod p) b 0) ^ p = QuadraticAlgebra.C (a ^ p) from
      (map_pow (algebraMap (ZMod p) (QuadraticAlgebra (ZMod p) b 0)) a p).symm, ZMod.pow_card]
    ext <;> simp
  rw [pow_succ, hfrob]
  ext
  · simp [hab]
  · simp

theorem sqrtFinish_spec (h2 : p ≠ 2) (h64 : p < 2 ^ 64) {n a b : ℕ} (hn : n < p) (hn0 : n ≠ 0) (ha : a < p)
    (hb : ¬IsSquare (b : ZMod p)) (hab : (b : ZMod p) = a * a - n) :
    (IsSquare (n : ZMod p) → ∃ r, sqrtFinish p n (a, b) = .ok r ∧ 2 * r < p ∧ (r : ZMod p) * r = n) ∧
    (¬IsSquare (n : ZMod p) → sqrtFinish p n (a, b) = .error .assertion) := by
  have hp := hpf.out
  have hodd : p % 2 = 1 := hp.eq_two_or_odd.resolve_left h2
  have h3 : 3 ≤ p := by have := hp.two_le; omega
  have hexp : (p + 1) % 2 ^ 64 / 2 = (p + 1) / 2 := by
    have : p ≠ 2 ^ 64 - 1 := by
      rintro rfl
      exact absurd (hp.eq_one_or_self_of_dvd 3 (by norm_num)) (by norm_num)
    rw [Nat.mod_eq_of_lt (by omega)]
  obtain ⟨l1, l2, hx⟩ := pow2_spec (p := p) (b := b) (n := (p + 1) / 2) (x := (a, 1)) (by omega) ha hp.one_lt
  have hsf : sqrtFinish p n (a, b) = (do
      slowAssert ((pow (mul2 p b) (1, 0) (a, 1) ((p + 1) / 2)).2 = 0)
      slowAssert (mul p (min (pow (mul2 p b) (1, 0) (a, 1) ((p + 1) / 2)).1 (neg p (pow (mul2 p b) (1, 0) (a, 1) ((p + 1) / 2)).1))
        (min (pow (mul2 p b) (1, 0) (a, 1) ((p + 1) / 2)).1 (neg p (pow (mul2 p b) (1, 0) (a, 1) ((p + 1) / 2)).1)) = n)
      return (min (pow (mul2 p b) (1, 0) (a, 1) ((p + 1) / 2)).1 (neg p (pow (mul2 p b) (1, 0) (a, 1) ((p + 1) / 2)).1)) : Res ℕ) := by
    simp only [sqrtFinish, hexp]
  rw [hsf]
  revert l1 l2 hx
  generalize pow (mul2 p b) (1, 0) (a, 1) ((p + 1) / 2) = x
  obtain ⟨u, v⟩ := x
  intro l1 l2 hx
  simp only at l1 l2 hx ⊢
  have hsq : toQ (b : ZMod p) (u, v) * toQ (b : ZMod p) (u, v) = QuadraticAlgebra.C (n : ZMod p) := by
    rw [hx, ← pow_add, show (p + 1) / 2 + (p + 1) / 2 = p + 1 by omega]
    have := cipolla (a := (a : ZMod p)) (n := (n : ZMod p)) h2 hb hab
    rw [← this]
    simp [toQ]
  have hre := congrArg QuadraticAlgebra.re hsq
  have him := congrArg QuadraticAlgebra.im hsq
  simp only [toQ, re_mul, im_mul, re_C, im_C, zero_mul, add_zero] at hre him
  have htwo : (2 : ZMod p) ≠ 0 := by
    have : ((2 : ℕ) : ZMod p) ≠ 0 := by
      rw [Ne, ZMod.natCast_eq_zero_iff]; exact fun h => by have := Nat.le_of_dvd (by norm_num) h; omega
    simpa using this
  have huv : (u : ZMod p) = 0 ∨ (v : ZMod p) = 0 := by
    have : 2 * ((u : ZMod p) * v) = 0 := by linear_combination him
    rcases mul_eq_zero.mp this with h | h
    · exact absurd h htwo
    · exact mul_eq_zero.mp h
  have hnz : (n : ZMod p) ≠ 0 := by
    rw [Ne, ZMod.natCast_eq_zero_iff]; exact fun h => hn0 (Nat.eq_zero_of_dvd_of_lt h hn)
  have hv0 : (v : ZMod p) = 0 ↔ v = 0 := by
    rw [ZMod.natCast_eq_zero_iff]; exact ⟨fun h => Nat.eq_zero_of_dvd_of_lt h l2, fun h => by simp [h]⟩
  constructor
  · rintro ⟨m, hm⟩
    have hvz : (v : ZMod p) = 0 := by
      by_contra hv
      have hu := huv.resolve_right hv
      refine hb ⟨m / v, ?_⟩
      have : (b : ZMod p) * (v * v) = m * m := by rw [← hm, ← hre, hu]; ring
      field_simp
      linear_combination this
    have hu2 : (u : ZMod p) * u = n := by rw [← hre, hvz]; ring
    have hu0 : u ≠ 0 := by rintro rfl; apply hnz; rw [← hu2]; simp
    have hneg : neg p u = p - u := by rw [neg_eq h64 l1.le, if_neg hu0]
    have hr2 : ((min u (p - u) : ℕ) : ZMod p) * (min u (p - u) : ℕ) = n := by
      rcases le_total u (p - u) with h | h
      · rw [min_eq_left h]; exact hu2
      · rw [min_eq_right h, Nat.cast_sub l1.le]; simp [hu2]
    refine ⟨min u (p - u), ?_, by omega, hr2⟩
    rw [slowAssert_true (hv0.mp hvz), bok, hneg, slowAssert_true, bok, pok]
    refine eq_of_cast (mul_lt hp.pos _ _) hn ?_
    rw [mul_cast]; exact hr2
  · intro hns
    have hv : v ≠ 0 := by
      intro hv
      exact hns ⟨u, by rw [← hre, hv]; simp⟩
    rw [slowAssert_false hv, berr]

/-- There is a suitable `a`. -/
theorem exists_nonsquare (h2 : p ≠ 2) {n : ZMod p} (hn : n ≠ 0) : ∃ a : ZMod p, ¬IsSquare (a * a - n) := by
  by_contra hall
  push Not at hall
  have hp := hpf.out
  have step : ∀ k : ℕ, IsSquare (-((k : ZMod p) * n)) := by
    intro k
    induction k with
    | zero => exact ⟨0, by simp⟩
    | succ k ih =>
      obtain ⟨c, hc⟩ := ih
      have := hall c
      rw [← hc] at this
      convert this using 1
      push_cast; ring
  have every : ∀ c : ZMod p, IsSquare c := by
    intro c
    have := step (-c / n).val
    rw [ZMod.natCast_val, ZMod.cast_id] at this
    have e : -(-c / n * n) = c := by field_simp
    rwa [e] at this
  obtain ⟨c, hc⟩ := FiniteField.exists_nonsquare (F := ZMod p) (by rw [ZMod.ringChar_zmod_n]; exact h2)
  exact hc (every c)

theorem sqrtFind_spec (h2 : p ≠ 2) (h64 : p < 2 ^ 64) {n : ℕ} (hn : n < p) : ∀ draws : List ℕ,
    ((∃ w ∈ draws, ¬IsSquare ((w : ZMod p) * w - n)) → sqrtFind p n draws ≠ none) ∧
    ∀ r, sqrtFind p n draws = some r → ∃ a b, r.1 = .ok (a, b) ∧ a < p ∧ ¬IsSquare (b : ZMod p) ∧
      (b : ZMod p) = a * a - n := by
  classical
  have hp := hpf.out
  intro draws
  induction draws with
  | nil =>
    have e : sqrtFind p n [] = none := by rw [sqrtFind]
    refine ⟨?_, ?_⟩
    · rintro ⟨w, hw, _⟩
      exact absurd hw List.not_mem_nil
    · intro r h
      rw [e] at h
      exact absurd h (Option.some_ne_none r).symm
  | cons w draws ih =>
    have ha : w % p < p := Nat.mod_lt _ hp.pos
    have hac : ((w % p : ℕ) : ZMod p) = w := ZMod.natCast_mod w p
    have hbl : sub p (mul p (w % p) (w % p)) n < p := sub_lt hp.pos _ _
    have hml : mul p (w % p) (w % p) < p := mul_lt hp.pos _ _
    have hbc : (sub p (mul p (w % p) (w % p)) n : ZMod p) = (w : ZMod p) * w - n := by
      rw [sub_cast h64 (by omega) (by omega), mul_cast, hac]
    have hs := hasSqrt_prime (p := p) h2 h64 hbl
    simp only [sqrtFind, hs]
    by_cases hq : IsSquare (sub p (mul p (w % p) (w % p)) n : ZMod p)
    · rw [decide_eq_true hq]
      simp only [sqrtPick]
      refine ⟨?_, ih.2⟩
      rintro ⟨w', hw', hns⟩
      rcases List.mem_cons.mp hw' with rfl | hw'
      · rw [hbc] at hq; exact absurd hq hns
      · exact ih.1 ⟨w', hw', hns⟩
    · rw [decide_eq_false hq]
      simp only [sqrtPick]
      refine ⟨fun _ => by simp, ?_⟩
      rintro r h
      cases h
      exact ⟨_, _, rfl, ha, hq, by rw [hbc, hac]⟩

/-- `Fp::sqrt` of a square: the smaller root, whatever the random numbers. -/
theorem sqrt_square (h2 : p ≠ 2) (h64 : p < 2 ^ 64) {n r : ℕ} (hn : n < p) (hr : 2 * r < p) (hrn : (r : ZMod p) * r = n)
    (draws : List ℕ) : sqrt p n draws = none ∨ ∃ rest, sqrt p n draws = some (.ok r, rest) := by
  have hp := hpf.out
  have uniq : ∀ r' : ℕ, 2 * r' < p → (r' : ZMod p) * r' = n → r' = r := by
    intro r' h1 h3
    rcases mul_self_eq_mul_self_iff.mp (h3.trans hrn.symm) with h | h
    · exact eq_of_cast (by omega) (by omega) h
    · by_cases h0 : r = 0
      · subst h0
        exact eq_of_cast (p := p) (by omega) (by omega) (by simpa using h)
      · have : ((r' + r : ℕ) : ZMod p) = 0 := by push_cast; rw [h]; ring
        rw [ZMod.natCast_eq_zero_iff] at this
        have := Nat.le_of_dvd (by omega) this
        omega
  unfold sqrt
  split_ifs with h0
  · subst h0
    right
    have hz : r = 0 := (uniq 0 (by have := hp.pos; omega) (by simp)).symm
    exact ⟨draws, by rw [hz]⟩
  · cases e : sqrtFind p n draws with
    | none => left; rfl
    | some q =>
      right
      obtain ⟨a, b, e1, ha, hb, hab⟩ := (sqrtFind_spec h2 h64 hn draws).2 q e
      obtain ⟨q1, rest⟩ := q
      simp only at e1
      subst e1
      obtain ⟨r', er, hl, hs⟩ := (sqrtFinish_spec h2 h64 hn h0 ha hb hab).1 ⟨r, hrn.symm⟩
      refine ⟨rest, ?_⟩
      simp only [rbind]
      rw [er, uniq r' hl hs]

theorem sqrt_nonsquare (h2 : p ≠ 2) (h64 : p < 2 ^ 64) {n : ℕ} (hn : n < p) (hns : ¬IsSquare (n : ZMod p))
    (draws : List ℕ) : sqrt p n draws = none ∨ ∃ rest, sqrt p n draws = some (.error .assertion, rest) := by
  have h0 : n ≠ 0 := by rintro rfl; exact hns ⟨0, by simp⟩
  unfold sqrt
  rw [if_neg h0]
  cases e : sqrtFind p n draws with
  | none => left; rfl
  | some q =>
    right
    obtain ⟨a, b, e1, ha, hb, hab⟩ := (sqrtFind_spec h2 h64 hn draws).2 q e
    obtain ⟨q1, rest⟩ := q
    simp only at e1
    subst e1
    refine ⟨rest, ?_⟩
    simp only [rbind]
    rw [(sqrtFinish_spec h2 h64 hn h0 ha hb hab).2 hns]

theorem sqrt_ends (h2 : p ≠ 2) (h64 : p < 2 ^ 64) {n : ℕ} (hn : n < p) {draws : List ℕ}
    (hd : ∃ w ∈ draws, ¬IsSquare ((w : ZMod p) * w - n)) : sqrt p n draws ≠ none := by
  unfold sqrt
  split_ifs
  · simp
  · have := (sqrtFind_spec h2 h64 hn draws).1 hd
    cases e : sqrtFind p n draws with
    | none => exact absurd e this
    | some q =>
      obtain ⟨q1, rest⟩ := q
      cases q1 <;> simp [rbind]

end

end Mandelbrot.Sig
