import Verif.Sig.Inv
import Mathlib.NumberTheory.LucasPrimality
import Mathlib.Tactic.NormNum.Prime

/-!
# Lemmas about the primality test and about the search for the fields
-/

namespace Mandelbrot.Sig

/-! ## Certificates -/

/-- Lucas' criterion, with the powers computed by `pow`. -/
theorem lucas {p : ℕ} (a : ℕ) (l : List ℕ) (h64 : p < 2 ^ 64) (hp1 : 1 < p) (hl : ∀ q ∈ l, q.Prime) (hprod : l.prod = p - 1)
    (h1 : pow (mul p) 1 a (p - 1) = 1) (h2 : ∀ q ∈ l, pow (mul p) 1 a ((p - 1) / q) ≠ 1) : p.Prime := by
  refine lucas_primality p (a : ZMod p) ?_ ?_
  · rw [← pow_cast (by omega), h1]; simp
  · intro q hq hd h
    have hmem : q ∈ l := by
      rw [← hprod] at hd
      obtain ⟨x, hx, hdx⟩ := (Nat.Prime.prime hq).dvd_prod_iff.mp hd
      rwa [(Nat.prime_dvd_prime_iff_eq hq (hl x hx)).mp hdx]
    apply h2 q hmem
    have hlt : (p - 1) / q < 2 ^ 64 := lt_of_le_of_lt (Nat.div_le_self _ _) (by omega)
    have h0 : (p - 1) / q ≠ 0 := by
      have := Nat.div_pos (Nat.le_of_dvd (by omega) hd) hq.pos
      omega
    refine eq_of_cast (pow_lt' hp1 h0 hlt) hp1 ?_
    rw [pow_cast hlt, h]; simp

theorem prime_407521 : Nat.Prime 407521 := by
  refine lucas 34 [2, 2, 2, 2, 2, 3, 3, 5, 283] (by norm_num) (by norm_num) ?_ (by norm_num) (by decide +kernel) (by decide +kernel)
  simp only [List.mem_cons, List.not_mem_nil, or_false, forall_eq_or_imp, forall_eq]
  exact ⟨(by norm_num), (by norm_num), (by norm_num), (by norm_num), (by norm_num), (by norm_num), (by norm_num), (by norm_num), (by norm_num)⟩

theorem prime_1591547 : Nat.Prime 1591547 := by
  refine lucas 2 [2, 11, 73, 991] (by norm_num) (by norm_num) ?_ (by norm_num) (by decide +kernel) (by decide +kernel)
  simp only [List.mem_cons, List.not_mem_nil, or_false, forall_eq_or_imp, forall_eq]
  exact ⟨(by norm_num), (by norm_num), (by norm_num), (by norm_num)⟩

theorem prime_299210837 : Nat.Prime 299210837 := by
  refine lucas 2 [2, 2, 47, 1591547] (by norm_num) (by norm_num) ?_ (by norm_num) (by decide +kernel) (by decide +kernel)
  simp only [List.mem_cons, List.not_mem_nil, or_false, forall_eq_or_imp, forall_eq]
  exact ⟨(by norm_num), (by norm_num), (by norm_num), prime_1591547⟩

/-! ## `is_prime` on primes -/

theorem sprpAll_prime {p : ℕ} (hp : p.Prime) (h2 : p ≠ 2) (h64 : p < 2 ^ 64) : ∀ l : List ℕ, (∀ a ∈ l, 2 ≤ a ∧ a ≠ p) →
    sprpAll p l = .ok (decide (∀ a ∈ l, ¬p ∣ a)) := by
  intro l
  induction l with
  | nil => intro _; simp [sprpAll]
  | cons a l ih =>
    intro h
    have ha := h a (by simp)
    rw [sprpAll, isSprp_prime hp h2 h64 ha.1, bok]
    by_cases hd : p ∣ a
    · have e1 : decide (p = a ∨ ¬p ∣ a) = false := decide_eq_false (by rintro (h | h); exacts [ha.2 h.symm, h hd])
      have e2 : decide (∀ x ∈ a :: l, ¬p ∣ x) = false := decide_eq_false (fun h => h a (by simp) hd)
      rw [e1, e2]; rfl
    · have e1 : decide (p = a ∨ ¬p ∣ a) = true := decide_eq_true (Or.inr hd)
      rw [e1, ih (fun x hx => h x (by simp [hx]))]
      simp [hd]

/-- The primes other than 2, 3, 5 and 7 that divide one of the bases. -/
theorem dvd_bases {p : ℕ} (hp : p.Prime) (h2 : p ≠ 2) (h3 : p ≠ 3) (h5 : p ≠ 5) :
    (∀ a ∈ bases, ¬p ∣ a) ↔ p ∉ ([13, 19, 73, 193, 407521, 299210837] : List ℕ) := by
  have q2 : ¬p ∣ 2 := fun h => h2 ((Nat.prime_dvd_prime_iff_eq hp Nat.prime_two).mp h)
  have q3 : ¬p ∣ 3 := fun h => h3 ((Nat.prime_dvd_prime_iff_eq hp Nat.prime_three).mp h)
  have q5 : ¬p ∣ 5 := fun h => h5 ((Nat.prime_dvd_prime_iff_eq hp Nat.prime_five).mp h)
  have q13 : p ∣ 13 ↔ p = 13 := Nat.prime_dvd_prime_iff_eq hp (by norm_num)
  have q19 : p ∣ 19 ↔ p = 19 := Nat.prime_dvd_prime_iff_eq hp (by norm_num)
  have q73 : p ∣ 73 ↔ p = 73 := Nat.prime_dvd_prime_iff_eq hp (by norm_num)
  have q193 : p ∣ 193 ↔ p = 193 := Nat.prime_dvd_prime_iff_eq hp (by norm_num)
  have q4 : p ∣ 407521 ↔ p = 407521 := Nat.prime_dvd_prime_iff_eq hp prime_407521
  have q6 : p ∣ 299210837 ↔ p = 299210837 := Nat.prime_dvd_prime_iff_eq hp prime_299210837
  have e1 : p ∣ 325 ↔ p = 13 := by
    rw [show 325 = 5 * (5 * 13) by norm_num]; simp only [hp.dvd_mul, q5, q13, false_or]
  have e2 : ¬p ∣ 9375 := by
    rw [show 9375 = 3 * (5 * (5 * (5 * (5 * 5)))) by norm_num]; simp only [hp.dvd_mul, q3, q5, or_self, not_false_iff]
  have e3 : p ∣ 28178 ↔ p = 73 ∨ p = 193 := by
    rw [show 28178 = 2 * (73 * 193) by norm_num]; simp only [hp.dvd_mul, q2, q73, q193, false_or]
  have e4 : p ∣ 450775 ↔ p = 13 ∨ p = 19 ∨ p = 73 := by
    rw [show 450775 = 5 * (5 * (13 * (19 * 73))) by norm_num]; simp only [hp.dvd_mul, q5, q13, q19, q73, false_or]
  have e5 : p ∣ 9780504 ↔ p = 407521 := by
    rw [show 9780504 = 2 * (2 * (2 * (3 * 407521))) by norm_num]; simp only [hp.dvd_mul, q2, q3, q4, false_or]
  have e6 : p ∣ 1795265022 ↔ p = 299210837 := by
    rw [show 1795265022 = 2 * (3 * 299210837) by norm_num]; simp only [hp.dvd_mul, q2, q3, q6, false_or]
  simp only [bases, List.mem_cons, List.not_mem_nil, or_false, forall_eq_or_imp, forall_eq, q2, e1, e2, e3, e4, e5, e6,
    not_false_iff, true_and, not_or]
  clear q2 q3 q5 q13 q19 q73 q193 q4 q6 e1 e2 e3 e4 e5 e6 h2 h3 h5 hp
  constructor
  · rintro ⟨h1, ⟨h2, h3⟩, ⟨_, h5, _⟩, h7, h8⟩
    exact ⟨h1, h5, h2, h3, h7, h8⟩
  · rintro ⟨h1, h2, h3, h4, h5, h6⟩
    exact ⟨h1, ⟨h3, h4⟩, ⟨h1, h2, h3⟩, h5, h6⟩

theorem isPrime_prime {p : ℕ} (hp : p.Prime) (h64 : p < 2 ^ 64) :
    isPrime p = .ok (decide (p ∉ ([13, 19, 73, 193, 407521, 299210837] : List ℕ))) := by
  by_cases h2 : p = 2
  · subst h2; decide +kernel
  by_cases h3 : p = 3
  · subst h3; decide +kernel
  by_cases h5 : p = 5
  · subst h5; decide +kernel
  by_cases h7 : p = 7
  · subst h7; decide +kernel
  have nd : ∀ q, q.Prime → p ≠ q → ¬p % q = 0 := by
    intro q hq hne h
    exact hne ((Nat.prime_dvd_prime_iff_eq hq hp).mp (Nat.dvd_of_mod_eq_zero h)).symm
  have hf : [2, 3, 5, 7].find? (fun q => decide (p % q = 0)) = none := by
    simp [nd 2 (by norm_num) h2, nd 3 (by norm_num) h3, nd 5 (by norm_num) h5, nd 7 (by norm_num) h7]
  rw [isPrime, hf]
  simp only
  rw [sprpAll_prime hp h2 h64]
  · exact congrArg Except.ok (decide_eq_decide.mpr (dvd_bases hp h2 h3 h5))
  · intro a ha
    simp only [bases, List.mem_cons, List.not_mem_nil, or_false] at ha
    have np : ∀ q b, 1 < q → 1 < b → a = q * b → a ≠ p := by
      rintro q b hq hb rfl rfl
      exact Nat.not_prime_mul (by omega) (by omega) hp
    rcases ha with rfl | rfl | rfl | rfl | rfl | rfl | rfl
    · exact ⟨by norm_num, Ne.symm h2⟩
    · exact ⟨by norm_num, np 5 65 (by norm_num) (by norm_num) (by norm_num)⟩
    · exact ⟨by norm_num, np 5 1875 (by norm_num) (by norm_num) (by norm_num)⟩
    · exact ⟨by norm_num, np 2 14089 (by norm_num) (by norm_num) (by norm_num)⟩
    · exact ⟨by norm_num, np 5 90155 (by norm_num) (by norm_num) (by norm_num)⟩
    · exact ⟨by norm_num, np 2 4890252 (by norm_num) (by norm_num) (by norm_num)⟩
    · exact ⟨by norm_num, np 2 897632511 (by norm_num) (by norm_num) (by norm_num)⟩

/-! ## Square roots with chosen random numbers -/

theorem sqrt_reach {p : ℕ} [Fact p.Prime] (h2 : p ≠ 2) (h64 : p < 2 ^ 64) {n r : ℕ} (hn : n < p) (hr : 2 * r < p)
    (hrn : (r : ZMod p) * r = n) : ∃ w, ∀ rest, sqrt p n (w ++ rest) = some (.ok r, rest) := by
  by_cases h0 : n = 0
  · refine ⟨[], fun rest => ?_⟩
    rcases sqrt_square h2 h64 hn hr hrn ([] ++ rest) with h | ⟨rest', h⟩
    · simp [sqrt, h0] at h
    · rw [h]
      simp only [sqrt, h0, if_true, List.nil_append, Option.some.injEq, Prod.mk.injEq] at h
      rw [← h.2]
  have hn0 : (n : ZMod p) ≠ 0 := by
    rw [Ne, ZMod.natCast_eq_zero_iff]; exact fun h => h0 (Nat.eq_zero_of_dvd_of_lt h hn)
  obtain ⟨a, ha⟩ := exists_nonsquare h2 hn0
  have hp : 0 < p := (Fact.out : p.Prime).pos
  have : NeZero p := ⟨hp.ne'⟩
  refine ⟨[a.val], fun rest => ?_⟩
  classical
  have hlt : a.val < p := ZMod.val_lt a
  have hac : ((a.val : ℕ) : ZMod p) = a := by rw [ZMod.natCast_val, ZMod.cast_id]
  have hb : (sub p (mul p a.val a.val) n : ZMod p) = a * a - n := by
    have := mul_lt hp a.val a.val
    rw [sub_cast h64 (by omega) (by omega), mul_cast, hac]
  have hs := hasSqrt_prime (p := p) h2 h64 (sub_lt hp (mul p a.val a.val) n)
  have hd : decide (IsSquare (sub p (mul p a.val a.val) n : ZMod p)) = false := decide_eq_false (by rw [hb]; exact ha)
  rw [hd] at hs
  have hf : sqrtFind p n ([a.val] ++ rest) = some (.ok (a.val, sub p (mul p a.val a.val) n), rest) := by
    rw [List.singleton_append, sqrtFind, Nat.mod_eq_of_lt hlt, hs]; rfl
  have he : sqrt p n ([a.val] ++ rest) = some (sqrtFinish p n (a.val, sub p (mul p a.val a.val) n), rest) := by
    rw [sqrt, if_neg h0, hf]; rfl
  rcases sqrt_square h2 h64 hn hr hrn ([a.val] ++ rest) with h | ⟨rest', h⟩
  · rw [he] at h; exact absurd h (by simp)
  · rw [he] at h ⊢
    simp only [Option.some.injEq, Prod.mk.injEq] at h
    rw [h.1]

/-! ## One candidate -/

/-- Boolean test of the result of an operation. -/
def isOk (r : Res Bool) (b : Bool) : Bool := match r with | .ok c => c == b | .error _ => false

theorem isOk_eq {r : Res Bool} {b : Bool} (h : isOk r b = true) : r = .ok b := by
  cases r with
  | error e => simp [isOk] at h
  | ok c => simp only [isOk, beq_iff_eq] at h; rw [h]

/-- Checks a chain of square roots. -/
def chk (p : ℕ) : ℕ → ℕ → List ℕ → Bool → Bool
  | 0, _, _, v => v
  | _ + 1, r, [], v => isOk (hasSqrt p r) false && !v
  | i + 1, r, s :: rs, v => isOk (hasSqrt p r) true && decide (2 * s < p) && decide (r < p) && (mul p s s == r) && chk p i s rs v

/-- What is shown about a computation: its value does not depend on the random numbers, and there are numbers that give it. -/
def Det {α : Type} (f : List ℕ → Option (Res α × List ℕ)) (v : α) : Prop :=
  (∀ d, f d = none ∨ ∃ d', f d = some (.ok v, d')) ∧ ∃ w, ∀ rest, f (w ++ rest) = some (.ok v, rest)

theorem Det.pure {α : Type} (v : α) : Det (fun d => some (.ok v, d)) v := ⟨fun d => Or.inr ⟨d, rfl⟩, [], fun _ => rfl⟩

theorem Det.bind {α β : Type} {f : List ℕ → Option (Res α × List ℕ)} {v : α} {g : α → List ℕ → Option (Res β × List ℕ)} {u : β}
    (hf : Det f v) (hg : Det (g v) u) : Det (fun d => rbind (f d) g) u := by
  constructor
  · intro d
    rcases hf.1 d with h | ⟨d', h⟩
    · left; simp only [h, rbind]
    · simp only [h, rbind]; exact hg.1 d'
  · obtain ⟨w1, h1⟩ := hf.2
    obtain ⟨w2, h2⟩ := hg.2
    refine ⟨w1 ++ w2, fun rest => ?_⟩
    simp only [List.append_assoc, h1, rbind, h2]

theorem sqrt_det {p : ℕ} [Fact p.Prime] (h2 : p ≠ 2) (h64 : p < 2 ^ 64) {n r : ℕ} (hn : n < p) (hr : 2 * r < p)
    (hrn : (r : ZMod p) * r = n) : Det (sqrt p n) r := ⟨sqrt_square h2 h64 hn hr hrn, sqrt_reach h2 h64 hn hr hrn⟩

theorem rootsLoop_det {p : ℕ} (hp : p.Prime) (h2 : p ≠ 2) (h64 : p < 2 ^ 64) : ∀ (i r : ℕ) (rs : List ℕ) (v : Bool),
    chk p i r rs v = true → Det (rootsLoop p i r) v := by
  have : Fact p.Prime := ⟨hp⟩
  intro i
  induction i with
  | zero =>
    intro r rs v h
    have hv : v = true := by cases rs <;> simpa [chk] using h
    subst hv
    exact Det.pure true
  | succ i ih =>
    intro r rs v h
    cases rs with
    | nil =>
      simp only [chk, Bool.and_eq_true, Bool.not_eq_true'] at h
      obtain ⟨h1, rfl⟩ := h
      have e : rootsLoop p (i + 1) r = fun d => some (.ok false, d) := by
        funext d; rw [rootsLoop, isOk_eq h1]; rfl
      rw [e]; exact Det.pure false
    | cons s rs =>
      simp only [chk, Bool.and_eq_true, decide_eq_true_eq, beq_iff_eq] at h
      obtain ⟨⟨⟨⟨h1, hs⟩, hr⟩, hsq⟩, h3⟩ := h
      have e : rootsLoop p (i + 1) r = fun d => rbind (sqrt p r d) fun r d => rootsLoop p i r d := by
        funext d; rw [rootsLoop, isOk_eq h1]; rfl
      rw [e]
      refine Det.bind (sqrt_det h2 h64 hr hs ?_) (ih s rs v h3)
      rw [← mul_cast, hsq]

theorem candidate_det {p : ℕ} (hp : p.Prime) (h64 : p < 2 ^ 64) (h8 : p % 8 = 7) (h1 : isOk (isPrime p) true = true)
    (hm : isOk (hasSqrt p (neg p 1)) false = true) {rs : List ℕ} {v : Bool} (hc : chk p 4 2 rs v = true) : Det (candidate p) v := by
  have e : candidate p = rootsLoop p 4 2 := by
    funext d
    rw [candidate, if_neg (by omega), isOk_eq h1, isOk_eq hm]; rfl
  rw [e]
  exact rootsLoop_det hp (by rintro rfl; omega) h64 4 2 rs v hc

/-! ## The search -/

/-- What is shown about the search from `p` down for `c` more fields. -/
def Out (p c : ℕ) (out : List ℕ) : Prop :=
  (∀ n d, fieldsLoop n p c d = none ∨ ∃ d', fieldsLoop n p c d = some (.ok out, d')) ∧
    ∃ n w, ∀ rest, fieldsLoop n p c (w ++ rest) = some (.ok out, rest)

theorem fieldsLoop_zero (n p : ℕ) (d : List ℕ) : fieldsLoop n p 0 d = some (.ok [], d) := by cases n <;> rfl

theorem Out.done (p : ℕ) : Out p 0 [] :=
  ⟨fun n d => Or.inr ⟨d, fieldsLoop_zero n p d⟩, 0, [], fun rest => fieldsLoop_zero 0 p rest⟩

theorem pred64 {p : ℕ} (h0 : 0 < p) (h64 : p < 2 ^ 64) : (p + 2 ^ 64 - 1) % 2 ^ 64 = p - 1 := by
  rw [show p + 2 ^ 64 - 1 = (p - 1) + 2 ^ 64 by omega, Nat.add_mod_right, Nat.mod_eq_of_lt (by omega)]

theorem Out.take {p c : ℕ} {out : List ℕ} (h0 : 0 < p) (h64 : p < 2 ^ 64) (hd : Det (candidate p) true) (h : Out (p - 1) c out) :
    Out p (c + 1) (p :: out) := by
  have e : ∀ n, fieldsLoop (n + 1) p (c + 1) = fun d => rbind (candidate p d) fun taken d =>
      if taken then rbind (fieldsLoop n (p - 1) c d) fun l d => some (.ok (p :: l), d) else fieldsLoop n (p - 1) (c + 1) d := by
    intro n; funext d; rw [fieldsLoop, pred64 h0 h64]
  constructor
  · intro n d
    cases n with
    | zero => left; rfl
    | succ n =>
      rw [e]
      rcases hd.1 d with h1 | ⟨d1, h1⟩
      · left; simp only [h1, rbind]
      · simp only [h1, rbind, if_true]
        rcases h.1 n d1 with h2 | ⟨d2, h2⟩
        · left; rw [h2]
        · right; exact ⟨d2, by rw [h2]⟩
  · obtain ⟨n, w2, hw2⟩ := h.2
    obtain ⟨w1, hw1⟩ := hd.2
    refine ⟨n + 1, w1 ++ w2, fun rest => ?_⟩
    rw [e]
    simp only [List.append_assoc, hw1, rbind, if_true, hw2]

theorem Out.leave {p c : ℕ} {out : List ℕ} (h0 : 0 < p) (h64 : p < 2 ^ 64) (hd : Det (candidate p) false)
    (h : Out (p - 1) (c + 1) out) : Out p (c + 1) out := by
  have e : ∀ n, fieldsLoop (n + 1) p (c + 1) = fun d => rbind (candidate p d) fun taken d =>
      if taken then rbind (fieldsLoop n (p - 1) c d) fun l d => some (.ok (p :: l), d) else fieldsLoop n (p - 1) (c + 1) d := by
    intro n; funext d; rw [fieldsLoop, pred64 h0 h64]
  constructor
  · intro n d
    cases n with
    | zero => left; rfl
    | succ n =>
      rw [e]
      rcases hd.1 d with h1 | ⟨d1, h1⟩
      · left; simp only [h1, rbind]
      · simp only [h1, rbind]
        rcases h.1 n d1 with h2 | ⟨d2, h2⟩
        · left; rw [if_neg Bool.false_ne_true, h2]
        · right; exact ⟨d2, by rw [if_neg Bool.false_ne_true, h2]⟩
  · obtain ⟨n, w2, hw2⟩ := h.2
    obtain ⟨w1, hw1⟩ := hd.2
    refine ⟨n + 1, w1 ++ w2, fun rest => ?_⟩
    rw [e]
    simp only [List.append_assoc, hw1, rbind, if_neg Bool.false_ne_true, hw2]

/-- The `k` numbers from `p` down are rejected at once. -/
def allSkip : ℕ → ℕ → Bool
  | 0, _ => true
  | k + 1, p => (if p % 8 = 7 then isOk (isPrime p) false else true) && allSkip k (p - 1)

theorem Out.skip {c : ℕ} {out : List ℕ} : ∀ (k : ℕ) {p : ℕ}, k < p → p < 2 ^ 64 → allSkip k p = true → Out (p - k) (c + 1) out →
    Out p (c + 1) out := by
  intro k
  induction k with
  | zero => intro p _ _ _ h; exact h
  | succ k ih =>
    intro p hk h64 hs h
    simp only [allSkip, Bool.and_eq_true] at hs
    refine Out.leave (by omega) h64 ?_ (ih (p := p - 1) (by omega) (by omega) hs.2 (by rwa [Nat.sub_sub, Nat.add_comm 1 k]))
    have e : candidate p = fun d => some (.ok false, d) := by
      funext d
      rw [candidate]
      by_cases h7 : p % 8 = 7
      · rw [if_neg (by omega)]
        have := hs.1
        rw [if_pos h7] at this
        rw [isOk_eq this]; rfl
      · rw [if_pos h7]
    rw [e]; exact Det.pure false

end Mandelbrot.Sig
