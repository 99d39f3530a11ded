import Verif.Sig.Arbitrary
import Mathlib.Tactic.Ring
import Mathlib.Tactic.Common
import Mathlib.Algebra.Order.Ring.Nat

/-!
# C80: signatures of rounded operations are confused only by collisions of the hash
-/

namespace Mandelbrot.Props
open Mandelbrot.Sig

namespace Hashing

/-- The name as bytes; no name is the empty name. -/
def name (f : Option (List ℕ)) : List ℕ := f.getD []

/-- Words of 64 bits. -/
def Words (s : Sg) : Prop := ∀ i, s i < 2 ^ 64

/-- A hash of 32 bytes. -/
def Digest (sha : List ℕ → List ℕ) : Prop := ∀ m, (sha m).length = 32 ∧ ∀ b ∈ sha m, b < 256

end Hashing
open Hashing

theorem hash_bytes_length (n w : ℕ) : (bytes n w).length = n := by
  induction n generalizing w with
  | zero => rfl
  | succ n ih => rw [bytes, List.length_cons, ih]

theorem hash_word_bytes (n w : ℕ) : word (bytes n w) = w % 256 ^ n := by
  induction n generalizing w with
  | zero => rw [pow_zero, Nat.mod_one]; rfl
  | succ n ih => rw [bytes, word, ih, pow_succ', Nat.mod_mul]

theorem hash_bytes_word {l : List ℕ} (h : ∀ b ∈ l, b < 256) : bytes l.length (word l) = l := by
  induction l with
  | nil => rfl
  | cons b l ih =>
    have hb := h b (by simp)
    rw [List.length_cons, word, bytes, show (b + 256 * word l) % 256 = b by omega, show (b + 256 * word l) / 256 = word l by omega,
      ih fun c hc => h c (by simp [hc])]

theorem hash_word_lt {l : List ℕ} (h : ∀ b ∈ l, b < 256) : word l < 256 ^ l.length := by
  induction l with
  | nil => exact Nat.one_pos
  | cons b l ih =>
    have hb := h b (by simp)
    have := ih fun c hc => h c (by simp [hc])
    rw [word, List.length_cons, pow_succ']
    omega

theorem hash_bytes_inj {a b : ℕ} (ha : a < 2 ^ 64) (hb : b < 2 ^ 64) (h : bytes 8 a = bytes 8 b) : a = b := by
  have := congrArg word h
  rw [hash_word_bytes, hash_word_bytes, show 256 ^ 8 = 2 ^ 64 by norm_num] at this
  rwa [Nat.mod_eq_of_lt ha, Nat.mod_eq_of_lt hb] at this

theorem hash_sig_length (s : Sg) : (sigBytes s).length = 32 := by
  simp only [sigBytes, List.length_append, hash_bytes_length]

theorem hash_sig_inj {s t : Sg} (hs : Words s) (ht : Words t) (h : sigBytes s = sigBytes t) : s = t := by
  unfold sigBytes at h
  obtain ⟨h, h3⟩ := List.append_inj' h (by simp only [hash_bytes_length])
  obtain ⟨h, h2⟩ := List.append_inj' h (by simp only [hash_bytes_length])
  obtain ⟨h0, h1⟩ := List.append_inj' h (by simp only [hash_bytes_length])
  funext i
  match i with
  | 0 => exact hash_bytes_inj (hs 0) (ht 0) h0
  | 1 => exact hash_bytes_inj (hs 1) (ht 1) h1
  | 2 => exact hash_bytes_inj (hs 2) (ht 2) h2
  | 3 => exact hash_bytes_inj (hs 3) (ht 3) h3

theorem hash_flat_length (ss : List Sg) : (ss.flatMap sigBytes).length = 32 * ss.length := by
  induction ss with
  | nil => rfl
  | cons s ss ih => rw [List.flatMap_cons, List.length_append, hash_sig_length, ih, List.length_cons]; ring

theorem hash_flat_inj {ss tt : List Sg} (hs : ∀ s ∈ ss, Words s) (ht : ∀ t ∈ tt, Words t) (h : ss.flatMap sigBytes = tt.flatMap sigBytes) :
    ss = tt := by
  induction ss generalizing tt with
  | nil =>
    have := congrArg List.length h
    rw [hash_flat_length, hash_flat_length, List.length_nil] at this
    exact (List.length_eq_zero_iff.mp (by omega)).symm
  | cons s ss ih =>
    cases tt with
    | nil =>
      have := congrArg List.length h
      rw [hash_flat_length, hash_flat_length, List.length_cons, List.length_nil] at this
      omega
    | cons t tt =>
      rw [List.flatMap_cons, List.flatMap_cons] at h
      obtain ⟨h1, h2⟩ := List.append_inj h (by rw [hash_sig_length, hash_sig_length])
      rw [hash_sig_inj (hs s (by simp)) (ht t (by simp)) h1, ih (fun c hc => hs c (by simp [hc])) (fun c hc => ht c (by simp [hc])) h2]

theorem hash_name (f : Option (List ℕ)) (ss : List Sg) : hashed f ss = name f ++ ss.flatMap sigBytes := by cases f <;> rfl

/-- **C80.** The bytes that are hashed determine the name, up to 31 bytes of it, and the operands, their number and their order. -/
theorem C80_bytes {f g : Option (List ℕ)} {ss tt : List Sg} (hf : (name f).length < 32) (hg : (name g).length < 32) (hs : ∀ s ∈ ss, Words s)
    (ht : ∀ t ∈ tt, Words t) : hashed f ss = hashed g tt ↔ name f = name g ∧ ss = tt := by
  rw [hash_name, hash_name]
  constructor
  · intro h
    have hl := congrArg List.length h
    rw [List.length_append, List.length_append, hash_flat_length, hash_flat_length] at hl
    obtain ⟨h1, h2⟩ := List.append_inj h (by omega)
    exact ⟨h1, hash_flat_inj hs ht h2⟩
  · rintro ⟨h1, rfl⟩
    rw [h1]

/-- **C80.** The result is the digest: its memory has the bytes of the hash, so its words have 64 bits. -/
theorem C80_digest {sha : List ℕ → List ℕ} (hd : Digest sha) (f : Option (List ℕ)) (ss : List Sg) :
    sigBytes (arbitrary sha f ss) = sha (name f ++ ss.flatMap sigBytes) ∧ Words (arbitrary sha f ss) := by
  rw [← hash_name]
  obtain ⟨h1, h2⟩ := hd (hashed f ss)
  have len (k : ℕ) (hk : k ≤ 24) : (((sha (hashed f ss)).drop k).take 8).length = 8 := by
    rw [List.length_take, List.length_drop, h1]; omega
  have small (k : ℕ) : ∀ b ∈ ((sha (hashed f ss)).drop k).take 8, b < 256 := fun b hb => h2 b (List.mem_of_mem_drop (List.mem_of_mem_take hb))
  have back (k : ℕ) (hk : k ≤ 24) : bytes 8 (word (((sha (hashed f ss)).drop k).take 8)) = ((sha (hashed f ss)).drop k).take 8 := by
    have := hash_bytes_word (small k)
    rwa [len k hk] at this
  constructor
  · show bytes 8 (word (((sha (hashed f ss)).drop 0).take 8)) ++ bytes 8 (word (((sha (hashed f ss)).drop 8).take 8)) ++
      bytes 8 (word (((sha (hashed f ss)).drop 16).take 8)) ++ bytes 8 (word (((sha (hashed f ss)).drop 24).take 8)) = _
    rw [back 0 (by omega), back 8 (by omega), back 16 (by omega), back 24 (by omega), List.drop_zero, ← List.take_add, ← List.take_add,
      ← List.take_add, List.take_of_length_le (by omega)]
  · intro i
    have := hash_word_lt (small (8 * i.1))
    rw [len _ (by have := i.2; omega)] at this
    exact this.trans_eq (by norm_num)

/-- **C80.** Two rounded operations get the same signature only if they have the same name and operands, or the hash has a collision there. -/
theorem C80_distinct {sha : List ℕ → List ℕ} (hd : Digest sha) {f g : Option (List ℕ)} {ss tt : List Sg}
    (hf : (name f).length < 32) (hg : (name g).length < 32) (hs : ∀ s ∈ ss, Words s) (ht : ∀ t ∈ tt, Words t)
    (hc : sha (hashed f ss) = sha (hashed g tt) → hashed f ss = hashed g tt) :
    arbitrary sha f ss = arbitrary sha g tt ↔ name f = name g ∧ ss = tt := by
  constructor
  · intro h
    have := congrArg sigBytes h
    rw [(C80_digest hd f ss).1, (C80_digest hd g tt).1, ← hash_name, ← hash_name] at this
    exact (C80_bytes hf hg hs ht).mp (hc this)
  · rintro ⟨h1, rfl⟩
    unfold arbitrary
    rw [hash_name, hash_name, h1]

/-- **C80.** With a name of 32 bytes this is false: the name can be the bytes of an operand. -/
theorem C80_long_witness (sha : List ℕ → List ℕ) (s : Sg) (ss : List Sg) :
    ∃ f : List ℕ, f.length = 32 ∧ ∀ i, arbitrary sha (some f) ss i = arbitrary sha none (s :: ss) i :=
  ⟨sigBytes s, hash_sig_length s, fun _ => rfl⟩

theorem hash_bytes_lt (n w : ℕ) : ∀ b ∈ bytes n w, b < 256 := by
  induction n generalizing w with
  | zero => simp [bytes]
  | succ n ih =>
    intro b hb
    rcases List.mem_cons.mp hb with rfl | hb
    · exact Nat.mod_lt _ (by norm_num)
    · exact ih _ b hb

/-- **C80.** The digest is not reduced: its words can be above the modulus, and then the negation of the signature (exp.cc 33, sig.h 23) is not
its negative. -/
theorem C80_unreduced_witness {p : ℕ} (h1 : 2 ^ 63 < p) (h2 : p + 1 < 2 ^ 64) (f : Option (List ℕ)) (ss : List Sg) :
    ∃ sha, Digest sha ∧ (Sig.neg p (arbitrary sha f ss 0) + arbitrary sha f ss 0) % p ≠ 0 := by
  refine ⟨fun _ => bytes 8 (p + 1) ++ List.replicate 24 0, fun m => ⟨?_, fun b hb => ?_⟩, ?_⟩
  · rw [List.length_append, hash_bytes_length, List.length_replicate]
  · rcases List.mem_append.mp hb with hb | hb
    · exact hash_bytes_lt _ _ b hb
    · rw [(List.mem_replicate.mp hb).2]; norm_num
  · have e : arbitrary (fun _ => bytes 8 (p + 1) ++ List.replicate 24 0) f ss 0 = p + 1 := by
      show word (((bytes 8 (p + 1) ++ List.replicate 24 0).drop 0).take 8) = _
      rw [List.drop_zero, List.take_append_of_le_length (by rw [hash_bytes_length]), List.take_of_length_le (by rw [hash_bytes_length]),
        hash_word_bytes, Nat.mod_eq_of_lt (by norm_num; omega)]
    have e2 : Sig.neg p (p + 1) = 2 ^ 64 - 1 := by
      rw [Sig.neg, if_pos (by omega), show p + 2 ^ 64 - (p + 1) = 2 ^ 64 - 1 by omega]
      norm_num
    rw [e, e2, show 2 ^ 64 - 1 + (p + 1) = p + (2 ^ 64 - p) + p by omega, Nat.add_mod_right, Nat.add_mod_left, Nat.mod_eq_of_lt (by omega)]
    omega

/-! ## Cases -/

/-- `x.r` and `x.i` have different bytes for every `x`, and so have `f(x, y)` and `f(y, x)`. -/
example (x : Sg) (h : Words x) : hashed (some [114]) [x] ≠ hashed (some [105]) [x] := fun e =>
  absurd ((C80_bytes (by decide) (by decide) (by simpa using h) (by simpa using h)).mp e).1 (by decide)

example : hashed (some [102]) [fun _ => 1, fun _ => 2] ≠ hashed (some [102]) [fun _ => 2, fun _ => 1] := fun e => by
  have := ((C80_bytes (f := some [102]) (g := some [102]) (by decide) (by decide) (by intro s hs i; simp at hs; rcases hs with rfl | rfl <;> norm_num)
    (by intro s hs i; simp at hs; rcases hs with rfl | rfl <;> norm_num)).mp e).2
  have h0 := congrFun (List.cons.inj this).1 0
  exact absurd h0 (by decide)

/-- A hash of 32 bytes. -/
example : Digest fun m => List.replicate 32 (m.length % 256) := fun m =>
  ⟨List.length_replicate, fun b hb => by rw [(List.mem_replicate.mp hb).2]; exact Nat.mod_lt _ (by norm_num)⟩

/-- The first modulus of the program (C38) is in this range. -/
example : ∃ sha, Digest sha ∧ (Sig.neg 18446744073709551359 (arbitrary sha none [] 0) + arbitrary sha none [] 0) % 18446744073709551359 ≠ 0 :=
  C80_unreduced_witness (by norm_num) (by norm_num) none []

end Mandelbrot.Props
