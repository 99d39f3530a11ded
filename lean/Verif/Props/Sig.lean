import Verif.Sig.Fields

/-!
# Modular arithmetic and signatures: C36, C37, C38
-/

namespace Mandelbrot.Sig

namespace Spec

/-- Expressions over integer constants and variables. -/
inductive Term where
  | lit (a : ℤ)
  | var (k : ℕ)
  | neg (a : Term)
  | add (a b : Term)
  | sub (a b : Term)
  | mul (a b : Term)

/-- The value of an expression in a commutative ring. -/
def Term.val {R : Type} [CommRing R] (x : ℕ → R) : Term → R
  | .lit a => (a : R)
  | .var k => x k
  | .neg a => -a.val x
  | .add a b => a.val x + b.val x
  | .sub a b => a.val x - b.val x
  | .mul a b => a.val x * b.val x

/-- All constants are of type `int`. -/
def Term.Int32 : Term → Prop
  | .lit a => -2 ^ 31 ≤ a ∧ a < 2 ^ 31
  | .var _ => True
  | .neg a => a.Int32
  | .add a b => a.Int32 ∧ b.Int32
  | .sub a b => a.Int32 ∧ b.Int32
  | .mul a b => a.Int32 ∧ b.Int32

/-- No variables. -/
def Term.Closed : Term → Prop
  | .lit _ => True
  | .var _ => False
  | .neg a => a.Closed
  | .add a b => a.Closed ∧ b.Closed
  | .sub a b => a.Closed ∧ b.Closed
  | .mul a b => a.Closed ∧ b.Closed

/-- The same expression written with signatures. -/
def Term.sig (F : Sg) (x : ℕ → Sg) : Term → Sg
  | .lit a => ofInt F a
  | .var k => x k
  | .neg a => sneg F (a.sig F x)
  | .add a b => sadd F (a.sig F x) (b.sig F x)
  | .sub a b => ssub F (a.sig F x) (b.sig F x)
  | .mul a b => smul F (a.sig F x) (b.sig F x)

/-- The moduli the program uses. -/
def moduli : Fin 4 → ℕ := ![18446744073709551359, 18446744073709551263, 18446744073709549327, 18446744073709548503]

end Spec

open Spec

/-! ## C36 -/

/-- C36: the operations on canonical representatives are those of `Z/p` and give canonical representatives. -/
theorem C36_ops {p a b : ℕ} (hp : p < 2 ^ 64) (ha : a < p) (hb : b < p) :
    (neg p a < p ∧ (neg p a : ZMod p) = -a) ∧ (add p a b < p ∧ (add p a b : ZMod p) = a + b) ∧
    (sub p a b < p ∧ (sub p a b : ZMod p) = a - b) ∧ (mul p a b < p ∧ (mul p a b : ZMod p) = a * b) := by
  have h0 : 0 < p := by omega
  exact ⟨⟨neg_lt hp ha, neg_cast hp ha.le⟩, ⟨add_lt h0 a b, add_cast a b⟩, ⟨sub_lt h0 a b, sub_cast hp (by omega) (by omega)⟩,
    mul_lt h0 a b, mul_cast a b⟩

example : sub 18446744073709551359 3 5 = 18446744073709551357 := by decide +kernel

theorem ofInt_eq {F : Sg} {a : ℤ} {i : Fin 4} (h31 : 2 ^ 31 ≤ F i) (h64 : F i < 2 ^ 64) (h1 : -2 ^ 31 ≤ a) (h2 : a < 2 ^ 31) :
    ofInt F a i < F i ∧ (ofInt F a i : ℤ) = if 0 ≤ a then a else a + F i := by
  unfold ofInt
  by_cases h : a ≥ 0
  · rw [if_pos h, if_pos h]; omega
  · rw [if_neg h, if_neg h]
    have e : (a % 2 ^ 64).toNat = (2 ^ 64 + a).toNat := by
      rw [show a % 2 ^ 64 = 2 ^ 64 + a by omega]
    have e2 : (2 ^ 64 + a).toNat + F i = (F i - (-a).toNat) + 2 ^ 64 := by omega
    have e3 : ((a % 2 ^ 64).toNat + F i) % 2 ^ 64 = F i - (-a).toNat := by
      rw [e, e2, Nat.add_mod_right, Nat.mod_eq_of_lt (by omega)]
    rw [e3]
    omega

/-- C36: the signature of an `int` is its residue. -/
theorem C36_ofInt {F : Sg} {a : ℤ} (h31 : ∀ i, 2 ^ 31 ≤ F i) (h64 : ∀ i, F i < 2 ^ 64) (h1 : -2 ^ 31 ≤ a) (h2 : a < 2 ^ 31)
    (i : Fin 4) : ofInt F a i < F i ∧ (ofInt F a i : ZMod (F i)) = a := by
  obtain ⟨l, e⟩ := ofInt_eq (F := F) (h31 i) (h64 i) h1 h2
  refine ⟨l, ?_⟩
  have : ((ofInt F a i : ℤ) : ZMod (F i)) = ((if 0 ≤ a then a else a + F i : ℤ) : ZMod (F i)) := by rw [e]
  rw [Int.cast_natCast] at this
  rw [this]
  split_ifs <;> simp

/-- C36: an expression over signatures has the value of the expression in each field, for all values of the variables. -/
theorem C36_expressions {F : Sg} (h31 : ∀ i, 2 ^ 31 ≤ F i) (h64 : ∀ i, F i < 2 ^ 64) {x : ℕ → Sg} (hx : ∀ k i, x k i < F i) :
    ∀ (e : Term), e.Int32 → ∀ i, e.sig F x i < F i ∧ (e.sig F x i : ZMod (F i)) = e.val (fun k => (x k i : ZMod (F i))) := by
  intro e
  induction e with
  | lit a => intro h i; exact C36_ofInt h31 h64 h.1 h.2 i
  | var k => intro _ i; exact ⟨hx k i, rfl⟩
  | neg a iha =>
    intro h i
    have := (C36_ops (h64 i) (iha h i).1 (iha h i).1).1
    exact ⟨this.1, by rw [Term.val, ← (iha h i).2]; exact this.2⟩
  | add a b iha ihb =>
    intro h i
    have := (C36_ops (h64 i) (iha h.1 i).1 (ihb h.2 i).1).2.1
    exact ⟨this.1, by rw [Term.val, ← (iha h.1 i).2, ← (ihb h.2 i).2]; exact this.2⟩
  | sub a b iha ihb =>
    intro h i
    have := (C36_ops (h64 i) (iha h.1 i).1 (ihb h.2 i).1).2.2.1
    exact ⟨this.1, by rw [Term.val, ← (iha h.1 i).2, ← (ihb h.2 i).2]; exact this.2⟩
  | mul a b iha ihb =>
    intro h i
    have := (C36_ops (h64 i) (iha h.1 i).1 (ihb h.2 i).1).2.2.2
    exact ⟨this.1, by rw [Term.val, ← (iha h.1 i).2, ← (ihb h.2 i).2]; exact this.2⟩

theorem closed_cast {R : Type} [CommRing R] (x : ℕ → R) (y : ℕ → ℤ) : ∀ e : Term, e.Closed → e.val x = ((e.val y : ℤ) : R) := by
  intro e
  induction e with
  | lit a => intro _; rfl
  | var k => intro h; exact h.elim
  | neg a iha => intro h; rw [Term.val, Term.val, iha h]; push_cast; rfl
  | add a b iha ihb => intro h; rw [Term.val, Term.val, iha h.1, ihb h.2]; push_cast; rfl
  | sub a b iha ihb => intro h; rw [Term.val, Term.val, iha h.1, ihb h.2]; push_cast; rfl
  | mul a b iha ihb => intro h; rw [Term.val, Term.val, iha h.1, ihb h.2]; push_cast; rfl

/-- C36: an expression over `int` constants has as signature the residues of its value. -/
theorem C36_integers {F : Sg} (h31 : ∀ i, 2 ^ 31 ≤ F i) (h64 : ∀ i, F i < 2 ^ 64) (e : Term) (he : e.Int32) (hc : e.Closed)
    (x : ℕ → Sg) (hx : ∀ k i, x k i < F i) (i : Fin 4) : (e.sig F x i : ℤ) = e.val (fun _ => (0 : ℤ)) % F i := by
  obtain ⟨l, h⟩ := C36_expressions h31 h64 hx e he i
  rw [closed_cast _ (fun _ => (0 : ℤ)) e hc] at h
  have : ((e.sig F x i : ℤ) : ZMod (F i)) = ((e.val (fun _ => (0 : ℤ)) : ℤ) : ZMod (F i)) := by rw [Int.cast_natCast]; exact h
  rw [ZMod.intCast_eq_intCast_iff] at this
  rw [← this]
  exact (Int.emod_eq_of_lt (by positivity) (by exact_mod_cast l)).symm

theorem moduli_prime (i : Fin 4) : (moduli i).Prime := by
  fin_cases i
  · exact prime_18446744073709551359
  · exact prime_18446744073709551263
  · exact prime_18446744073709549327
  · exact prime_18446744073709548503

theorem moduli_range (i : Fin 4) : 2 ^ 63 < moduli i ∧ moduli i < 2 ^ 64 := by
  fin_cases i <;> simp [moduli]

/-- C36: with the moduli of the program, two integer expressions whose values differ by less than 2^252 have the same signature
exactly if their values are the same. -/
theorem C36_faithful {e f : Term} (he : e.Int32) (hf : f.Int32) (hec : e.Closed) (hfc : f.Closed) {x : ℕ → Sg}
    (hx : ∀ k i, x k i < moduli i) (hd : |e.val (fun _ => (0 : ℤ)) - f.val (fun _ => (0 : ℤ))| < 2 ^ 252) :
    e.sig moduli x = f.sig moduli x ↔ e.val (fun _ => (0 : ℤ)) = f.val (fun _ => (0 : ℤ)) := by
  have h31 : ∀ i, 2 ^ 31 ≤ moduli i := fun i => by have := moduli_range i; omega
  have h64 : ∀ i, moduli i < 2 ^ 64 := fun i => (moduli_range i).2
  constructor
  · intro h
    have hdvd : ∀ i, (moduli i : ℤ) ∣ e.val (fun _ => (0 : ℤ)) - f.val (fun _ => (0 : ℤ)) := by
      intro i
      have h1 := C36_integers h31 h64 e he hec x hx i
      have h2 := C36_integers h31 h64 f hf hfc x hx i
      rw [h, h2] at h1
      exact Int.ModEq.dvd h1
    have hcop : ∀ i j, i ≠ j → IsCoprime (moduli i : ℤ) (moduli j : ℤ) := by
      intro i j hij
      rw [Nat.isCoprime_iff_coprime]
      refine (Nat.coprime_primes (moduli_prime i) (moduli_prime j)).mpr ?_
      revert hij
      fin_cases i <;> fin_cases j <;> simp [moduli]
    have hall : (∏ i, (moduli i : ℤ)) ∣ e.val (fun _ => (0 : ℤ)) - f.val (fun _ => (0 : ℤ)) :=
      Finset.prod_dvd_of_coprime (fun i _ j _ hij => hcop i j hij) (fun i _ => hdvd i)
    have hbig : (2 : ℤ) ^ 252 ≤ ∏ i, (moduli i : ℤ) := by
      have : ∏ i, (moduli i : ℤ) = (18446744073709551359 : ℤ) * 18446744073709551263 * 18446744073709549327 * 18446744073709548503 := by
        rw [Fin.prod_univ_four]; rfl
      rw [this]; norm_num
    have h0 := Int.eq_zero_of_abs_lt_dvd hall (lt_of_lt_of_le hd hbig)
    omega
  · intro h
    funext i
    have h1 := C36_integers h31 h64 e he hec x hx i
    have h2 := C36_integers h31 h64 f hf hfc x hx i
    rw [h, ← h2] at h1
    exact_mod_cast h1

example : (Term.add (.lit 3) (.mul (.lit (-2)) (.lit 5))).sig moduli (fun _ => 0) =
    (Term.sub (.lit 0) (.lit 7)).sig moduli (fun _ => 0) :=
  (C36_faithful (e := .add (.lit 3) (.mul (.lit (-2)) (.lit 5))) (f := .sub (.lit 0) (.lit 7)) (by simp [Term.Int32])
    (by simp [Term.Int32]) (by simp [Term.Closed]) (by simp [Term.Closed])
    (fun k i => by have := moduli_range i; simp only [Pi.zero_apply]; omega) (by simp [Term.val])).mpr (by simp [Term.val])

/-- C36: shifting multiplies by a power of two, for counts up to 30. -/
theorem C36_shift {F : Sg} (h31 : ∀ i, 2 ^ 31 ≤ F i) (h64 : ∀ i, F i < 2 ^ 64) (x : Sg) {k : ℕ} (hk : k ≤ 30) :
    ∃ y, sshl F x k = .ok y ∧ ∀ i, y i < F i ∧ (y i : ZMod (F i)) = x i * 2 ^ k := by
  have e : sshl F x k = .ok (smul F x (ofInt F (2 ^ k))) := by
    simp only [sshl, Area.shl32]
    rw [if_neg (by omega), if_neg (by omega), bok]; rfl
  refine ⟨_, e, fun i => ?_⟩
  have hk2 : (2 : ℤ) ^ k ≤ 2 ^ 30 := pow_le_pow_right₀ (by norm_num) hk
  have hk0 : (0 : ℤ) < 2 ^ k := by positivity
  have h := C36_ofInt (F := F) (a := 2 ^ k) h31 h64 (by linarith) (by linarith) i
  have hp : 0 < F i := by have := h31 i; omega
  refine ⟨mul_lt hp _ _, ?_⟩
  rw [smul, mul_cast, h.2]; push_cast; rfl

/-- Shifting by 31 multiplies by `-2^31`, and shifting by 32 is undefined. -/
theorem C36_shift_witness {F : Sg} (h31 : ∀ i, 2 ^ 31 ≤ F i) (h64 : ∀ i, F i < 2 ^ 64) (x : Sg) :
    (∃ y, sshl F x 31 = .ok y ∧ ∀ i, (y i : ZMod (F i)) = x i * -2 ^ 31) ∧ sshl F x 32 = .error .ub := by
  constructor
  · have e : sshl F x 31 = .ok (smul F x (ofInt F (-2 ^ 31))) := rfl
    refine ⟨_, e, fun i => ?_⟩
    have h := C36_ofInt (F := F) (a := -2 ^ 31) h31 h64 le_rfl (by norm_num) i
    rw [smul, mul_cast, h.2]; push_cast; norm_num
  · rfl

theorem sneg_ofInt {F : Sg} (h31 : ∀ i, 2 ^ 31 ≤ F i) (h64 : ∀ i, F i < 2 ^ 64) {k : ℕ} (hk : k ≤ 32) :
    sneg F (ofInt F k) = ofInt F (-k) := by
  funext i
  obtain ⟨l, e⟩ := ofInt_eq (F := F) (a := k) (h31 i) (h64 i) (by omega) (by omega)
  obtain ⟨l', e'⟩ := ofInt_eq (F := F) (a := -k) (h31 i) (h64 i) (by omega) (by omega)
  rw [sneg, neg_eq (h64 i) l.le]
  split_ifs at * <;> omega

theorem mem_smalls {F : Sg} (h31 : ∀ i, 2 ^ 31 ≤ F i) (h64 : ∀ i, F i < 2 ^ 64) (e : Sg × ℤ) :
    e ∈ smalls F ↔ |e.2| ≤ 32 ∧ e.1 = ofInt F e.2 := by
  obtain ⟨s, k⟩ := e
  simp only [smalls, List.mem_flatMap, List.mem_range, List.mem_cons, List.not_mem_nil, or_false, Prod.mk.injEq]
  constructor
  · rintro ⟨a, ha, ⟨rfl, rfl⟩ | ⟨rfl, rfl⟩⟩
    · exact ⟨by rw [abs_le]; omega, rfl⟩
    · exact ⟨by rw [abs_le]; omega, sneg_ofInt h31 h64 (by omega)⟩
  · rintro ⟨h, rfl⟩
    rw [abs_le] at h
    refine ⟨k.natAbs, by omega, ?_⟩
    rcases le_total 0 k with h0 | h0
    · left; rw [Int.natAbs_of_nonneg h0]; exact ⟨rfl, rfl⟩
    · right
      have : ((k.natAbs : ℕ) : ℤ) = -k := by omega
      rw [sneg_ofInt h31 h64 (by omega), this, neg_neg]; exact ⟨rfl, rfl⟩

/-- C36: `unsmall` recognises exactly the signatures of the integers from -32 to 32. -/
theorem C36_unsmall {F : Sg} (h31 : ∀ i, 2 ^ 31 ≤ F i) (h64 : ∀ i, F i < 2 ^ 64) (s : Sg) (k : ℤ) :
    unsmall F s = some k ↔ |k| ≤ 32 ∧ s = ofInt F k := by
  have inj : ∀ a b : ℤ, |a| ≤ 32 → |b| ≤ 32 → ofInt F a = ofInt F b → a = b := by
    intro a b ha hb h
    rw [abs_le] at ha hb
    obtain ⟨l, e⟩ := ofInt_eq (F := F) (a := a) (h31 0) (h64 0) (by omega) (by omega)
    obtain ⟨l', e'⟩ := ofInt_eq (F := F) (a := b) (h31 0) (h64 0) (by omega) (by omega)
    rw [h, e'] at e
    have := h31 0
    split_ifs at e <;> omega
  unfold unsmall
  constructor
  · intro h
    rw [Option.map_eq_some_iff] at h
    obtain ⟨e, he, rfl⟩ := h
    have hm := (mem_smalls h31 h64 e).mp (List.mem_reverse.mp (List.mem_of_find?_eq_some he))
    have hs := List.find?_some he
    simp only [decide_eq_true_eq] at hs
    exact ⟨hm.1, by rw [← hm.2]; funext i; exact (hs i).symm⟩
  · rintro ⟨hk, rfl⟩
    have hmem : (ofInt F k, k) ∈ (smalls F).reverse := List.mem_reverse.mpr ((mem_smalls h31 h64 _).mpr ⟨hk, rfl⟩)
    cases h : (smalls F).reverse.find? (fun e => decide (∀ i, e.1 i = ofInt F k i)) with
    | none =>
      have := List.find?_eq_none.mp h _ hmem
      simp at this
    | some e =>
      have hm := (mem_smalls h31 h64 e).mp (List.mem_reverse.mp (List.mem_of_find?_eq_some h))
      have hs := List.find?_some h
      simp only [decide_eq_true_eq] at hs
      have : e.2 = k := inj _ _ hm.1 hk (by rw [← hm.2]; funext i; exact hs i)
      simp [this]

example : unsmall moduli (Term.sig moduli (fun _ => 0) (.sub (.lit 3) (.lit 8))) = some (-5) := by
  refine (C36_unsmall (fun i => by have := moduli_range i; omega) (fun i => (moduli_range i).2) _ _).mpr ⟨by norm_num, ?_⟩
  decide +kernel

/-! ## C37 -/

/-- C37: `pow` is exponentiation modulo any `p`, with a canonical result. -/
theorem C37_pow {p a n : ℕ} (hp : 1 < p) (ha : a < p) (hn : n < 2 ^ 64) : pow (mul p) 1 a n = a ^ n % p := by
  have h1 := pow_lt hp ha hn
  refine eq_of_cast h1 (Nat.mod_lt _ (by omega)) ?_
  rw [pow_cast hn, ZMod.natCast_mod, Nat.cast_pow]

example : pow (mul 18446744073709551359) 1 3 100 = 3 ^ 100 % 18446744073709551359 := C37_pow (by norm_num) (by norm_num) (by norm_num)

/-- C37: `inv` returns the inverse of every number prime to `p` and throws on every other number; for all values of 64 bits it
ends and no 128-bit operation overflows. -/
theorem C37_inv {p x n : ℕ} (hp1 : 1 < p) (hp : p < 2 ^ 64) (hx : x < 2 ^ 64) (hn : p + 2 ≤ n) :
    if Nat.Coprime x p then ∃ r, inv n p x = some (.ok r) ∧ r < p ∧ (r * x) % p = 1 else inv n p x = some (.error .assertion) :=
  inv_spec hp1 hp hx hn

example : ∃ r, inv 20 15 7 = some (.ok r) ∧ r < 15 ∧ (r * 7) % 15 = 1 := by
  have := C37_inv (p := 15) (x := 7) (n := 20) (by norm_num) (by norm_num) (by norm_num) (by norm_num)
  rwa [if_pos (by decide)] at this

/-- C37: the inverse of a signature. -/
theorem C37_inv_sig {x : Sg} (hx : ∀ i, x i < moduli i) (h0 : ∀ i, x i ≠ 0) {n : ℕ} (hn : 2 ^ 65 ≤ n) :
    ∃ y : Sg, (∀ i, sinv n moduli x i = some (.ok (y i))) ∧ smul moduli y x = ofInt moduli 1 := by
  have h : ∀ i, ∃ r, inv n (moduli i) (x i) = some (.ok r) ∧ (r * x i) % moduli i = 1 := by
    intro i
    have hr := moduli_range i
    have := C37_inv (p := moduli i) (x := x i) (n := n) (by omega) (by omega) (by have := hx i; omega) (by omega)
    rw [if_pos (Nat.Coprime.symm ((Nat.Prime.coprime_iff_not_dvd (moduli_prime i)).mpr
      (fun hd => h0 i (Nat.eq_zero_of_dvd_of_lt hd (hx i)))))] at this
    obtain ⟨r, h1, _, h2⟩ := this
    exact ⟨r, h1, h2⟩
  choose y h1 h2 using h
  exact ⟨y, h1, funext h2⟩

/-- C37: for an odd prime, `has_sqrt` decides whether there is a root. -/
theorem C37_hasSqrt {p a : ℕ} (hp : p.Prime) (h2 : p ≠ 2) (h64 : p < 2 ^ 64) (ha : a < p) :
    (hasSqrt p a = .ok true ↔ ∃ r, r * r % p = a) ∧ (hasSqrt p a = .ok false ↔ ¬∃ r, r * r % p = a) := by
  have : Fact p.Prime := ⟨hp⟩
  classical
  have hs : IsSquare (a : ZMod p) ↔ ∃ r, r * r % p = a := by
    constructor
    · rintro ⟨r, hr⟩
      refine ⟨r.val, eq_of_cast (Nat.mod_lt _ hp.pos) ha ?_⟩
      rw [ZMod.natCast_mod, Nat.cast_mul, ZMod.natCast_val, ZMod.cast_id, hr]
    · rintro ⟨r, hr⟩
      exact ⟨r, by rw [← hr, ZMod.natCast_mod, Nat.cast_mul]⟩
  rw [hasSqrt_prime h2 h64 ha, ← hs]
  constructor
  · rw [Except.ok.injEq, decide_eq_true_iff]
  · rw [Except.ok.injEq, decide_eq_false_iff_not]

/-- C37: for an odd prime, `sqrt` of a residue returns the root below `p / 2`, the same one whatever the random numbers. -/
theorem C37_sqrt {p n : ℕ} (hp : p.Prime) (h2 : p ≠ 2) (h64 : p < 2 ^ 64) (hn : n < p) (hs : ∃ r, r * r % p = n) :
    ∃ r, r * r % p = n ∧ 2 * r < p ∧ (∀ draws, sqrt p n draws = none ∨ ∃ rest, sqrt p n draws = some (.ok r, rest)) ∧
      ∃ draws, ∀ rest, sqrt p n (draws ++ rest) = some (.ok r, rest) := by
  have : Fact p.Prime := ⟨hp⟩
  obtain ⟨s, hs⟩ := hs
  have hodd : p % 2 = 1 := hp.eq_two_or_odd.resolve_left h2
  have hlt := Nat.mod_lt s hp.pos
  have hsq : ((s % p : ℕ) : ZMod p) * (s % p : ℕ) = n := by
    rw [ZMod.natCast_mod, ← Nat.cast_mul, ← ZMod.natCast_mod (s * s), hs]
  obtain ⟨r, hr, hrn⟩ : ∃ r : ℕ, 2 * r < p ∧ (r : ZMod p) * r = n := by
    by_cases h : 2 * (s % p) < p
    · exact ⟨s % p, h, hsq⟩
    · refine ⟨p - s % p, by omega, ?_⟩
      rw [Nat.cast_sub hlt.le]
      simp only [CharP.cast_eq_zero, zero_sub, neg_mul_neg]
      exact hsq
  refine ⟨r, ?_, hr, sqrt_square h2 h64 hn hr hrn, sqrt_reach h2 h64 hn hr hrn⟩
  refine eq_of_cast (Nat.mod_lt _ hp.pos) hn ?_
  rw [ZMod.natCast_mod, Nat.cast_mul, hrn]

/-- C37: `sqrt` of a non-residue never returns. -/
theorem C37_sqrt_nonresidue {p n : ℕ} (hp : p.Prime) (h2 : p ≠ 2) (h64 : p < 2 ^ 64) (hn : n < p) (hs : ¬∃ r, r * r % p = n)
    (draws : List ℕ) : sqrt p n draws = none ∨ ∃ rest, sqrt p n draws = some (.error .assertion, rest) := by
  have : Fact p.Prime := ⟨hp⟩
  refine sqrt_nonsquare h2 h64 hn ?_ draws
  rintro ⟨r, hr⟩
  refine hs ⟨r.val, eq_of_cast (Nat.mod_lt _ hp.pos) hn ?_⟩
  rw [ZMod.natCast_mod, Nat.cast_mul, ZMod.natCast_val, ZMod.cast_id, hr]

/-- C37: `sqrt` of a residue stops at the first number drawn with `w² - n` a non-residue. -/
theorem C37_sqrt_ends {p n : ℕ} (hp : p.Prime) (h2 : p ≠ 2) (h64 : p < 2 ^ 64) (hn : n < p) {draws : List ℕ}
    (hd : ∃ w ∈ draws, ¬∃ r : ZMod p, (w : ZMod p) * w - n = r * r) : sqrt p n draws ≠ none := by
  have : Fact p.Prime := ⟨hp⟩
  exact sqrt_ends h2 h64 hn hd

example : ∃ r, r * r % 23 = 2 ∧ 2 * r < 23 ∧
    (∀ draws, sqrt 23 2 draws = none ∨ ∃ rest, sqrt 23 2 draws = some (.ok r, rest)) ∧
      ∃ draws, ∀ rest, sqrt 23 2 (draws ++ rest) = some (.ok r, rest) :=
  C37_sqrt (by norm_num) (by norm_num) (by norm_num) (by norm_num) ⟨5, rfl⟩

/-- C37: powers of signatures and of complex signatures; a negative exponent `n` counts as `2^64 + n`. -/
theorem C37_pow_sig {F : Sg} (h31 : ∀ i, 2 ^ 31 ≤ F i) (h64 : ∀ i, F i < 2 ^ 64) {x : Sg} (hx : ∀ i, x i < F i) (n : ℤ) (i : Fin 4) :
    spow F x n i < F i ∧ (spow F x n i : ZMod (F i)) = (x i : ZMod (F i)) ^ (n % 2 ^ 64).toNat := by
  have hn : (n % 2 ^ 64).toNat < 2 ^ 64 := by omega
  have hone := C36_ofInt (F := F) (a := 1) h31 h64 (by norm_num) (by norm_num)
  have := powLoop_hom (mul := smul F) (P := fun x => x i < F i) (f := fun x => (x i : ZMod (F i)))
    (fun a b _ _ => ⟨mul_lt (by have := h31 i; omega) _ _, mul_cast _ _⟩) 64 _ (ofInt F 1) x hn (hone i).1 (hx i)
  refine ⟨this.1, ?_⟩
  have h := this.2
  rw [(hone i).2] at h
  rw [spow, pow, h]; simp

theorem C37_pow_complex {F : Sg} (h31 : ∀ i, 2 ^ 31 ≤ F i) (h64 : ∀ i, F i < 2 ^ 64) {x : Sg × Sg} (hx1 : ∀ i, x.1 i < F i)
    (hx2 : ∀ i, x.2 i < F i) (n : ℤ) (i : Fin 4) : (cpow F x n).1 i < F i ∧ (cpow F x n).2 i < F i ∧
      (⟨(cpow F x n).1 i, (cpow F x n).2 i⟩ : QuadraticAlgebra (ZMod (F i)) (-1) 0) = ⟨x.1 i, x.2 i⟩ ^ (n % 2 ^ 64).toNat := by
  have hn : (n % 2 ^ 64).toNat < 2 ^ 64 := by omega
  have h0 : 0 < F i := by have := h31 i; omega
  have hone := C36_ofInt (F := F) (a := 1) h31 h64 (by norm_num) (by norm_num) i
  have hzero := C36_ofInt (F := F) (a := 0) h31 h64 (by norm_num) (by norm_num) i
  have := powLoop_hom (mul := cmul F) (P := fun x => x.1 i < F i ∧ x.2 i < F i)
    (f := fun x => (⟨x.1 i, x.2 i⟩ : QuadraticAlgebra (ZMod (F i)) (-1) 0))
    (fun a b ha hb => ⟨⟨sub_lt h0 _ _, add_lt h0 _ _⟩, by
      ext
      · simp only [cmul, ssub, smul, QuadraticAlgebra.re_mul]
        have h1 := mul_lt h0 (a.1 i) (b.1 i)
        have h2 := mul_lt h0 (a.2 i) (b.2 i)
        rw [sub_cast (h64 i) (h1.trans (h64 i)) (by omega), mul_cast, mul_cast]; ring
      · simp only [cmul, sadd, smul, QuadraticAlgebra.im_mul]
        rw [add_cast, mul_cast, mul_cast]; ring⟩) 64 _ (ofInt F 1, ofInt F 0) x hn ⟨hone.1, hzero.1⟩ ⟨hx1 i, hx2 i⟩
  refine ⟨this.1.1, this.1.2, ?_⟩
  have h := this.2
  have e1 : (⟨(ofInt F 1 i : ZMod (F i)), (ofInt F 0 i : ZMod (F i))⟩ : QuadraticAlgebra (ZMod (F i)) (-1) 0) = 1 := by
    rw [hone.2, hzero.2]
    ext
    · rw [QuadraticAlgebra.re_one]; simp
    · rw [QuadraticAlgebra.im_one]; simp
  simp only at h
  rw [e1, one_mul] at h
  exact h

example (i : Fin 4) : (spow moduli (ofInt moduli 3) (-1) i : ZMod (moduli i)) = (ofInt moduli 3 i : ZMod (moduli i)) ^ (2 ^ 64 - 1) :=
  (C37_pow_sig (fun i => by have := moduli_range i; omega) (fun i => (moduli_range i).2)
    (fun i => (C36_ofInt (fun i => by have := moduli_range i; omega) (fun i => (moduli_range i).2) (by norm_num) (by norm_num) i).1) _ i).2

/-! ## C38 -/

/-- C38, in part: on a prime of 64 bits `is_prime` returns true unless it is one of six primes.  Missing from the claim: those
six, on which it is false (`C38_rejected`). -/
theorem C38_accepts_partial {p : ℕ} (hp : p.Prime) (h64 : p < 2 ^ 64) :
    isPrime p = .ok true ↔ p ∉ ([13, 19, 73, 193, 407521, 299210837] : List ℕ) := by
  rw [isPrime_prime hp h64, Except.ok.injEq, decide_eq_true_iff]

/-- The claim that every prime is accepted does not hold: `is_prime(13)` is false, because 13 divides the base 325. -/
theorem C38_rejected : Nat.Prime 13 ∧ isPrime 13 = .ok false := by
  refine ⟨by norm_num, ?_⟩
  rw [isPrime_prime (by norm_num) (by norm_num)]; rfl

/-- `is_prime(1)` shifts by 64 bits. -/
theorem C38_one : isPrime 1 = .error .ub := by decide +kernel

example : isPrime 18446744073709551557 = .ok true := by decide +kernel

/-- C38: whatever the random numbers, the search for the fields ends with these four moduli or does not end, and there are
random numbers for which it ends. -/
theorem C38_fields : (∀ n draws, fieldsInit n draws = none ∨ ∃ rest, fieldsInit n draws = some (.ok (List.ofFn moduli), rest)) ∧
    ∃ n draws, ∀ rest, fieldsInit n (draws ++ rest) = some (.ok (List.ofFn moduli), rest) := fields_out

/-- C38: the moduli are odd primes for which -1 is no residue and 2 has a sixteenth root. -/
theorem C38_moduli (i : Fin 4) : (moduli i).Prime ∧ moduli i % 8 = 7 ∧ (¬∃ r, (r * r + 1) % moduli i = 0) ∧
    ∃ r, r ^ 16 % moduli i = 2 := by
  have hp := moduli_prime i
  have h8 : moduli i % 8 = 7 := by fin_cases i <;> rfl
  refine ⟨hp, h8, ?_, ?_⟩
  · rintro ⟨r, hr⟩
    have : Fact (moduli i).Prime := ⟨hp⟩
    have h := ZMod.exists_sq_eq_neg_one_iff (p := moduli i)
    refine (h.mp ⟨(r : ZMod (moduli i)), ?_⟩) (by omega)
    have h0 : ((r * r + 1 : ℕ) : ZMod (moduli i)) = 0 := (ZMod.natCast_eq_zero_iff _ _).mpr (Nat.dvd_of_mod_eq_zero hr)
    push_cast at h0
    linear_combination -h0
  · fin_cases i
    · exact ⟨232061468773340519, by decide +kernel⟩
    · exact ⟨908088953928228955, by decide +kernel⟩
    · exact ⟨5505787261907692961, by decide +kernel⟩
    · exact ⟨7999097046666482438, by decide +kernel⟩

end Mandelbrot.Sig
