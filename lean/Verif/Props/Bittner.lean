import Verif.Float.Bittner
import Verif.Float.Bounds
import Verif.IO.TextLemmas

/-!
# C81: literals of the table of earlier areas
-/

namespace Mandelbrot.Props

open Mandelbrot.Float Mandelbrot.Float.ToArb Mandelbrot.IO

/-! ## Text -/

theorem lit_digit {d : ℕ} (h : d < 10) : isDigit (Char.ofNat (48 + d)) = true := by
  rw [isDigit, digitVal_ofNat h]; rfl

theorem lit_dropWhile {l : List Char} (hl : ∀ c ∈ l, isDigit c = true) {c : Char} (hc : isDigit c = false) (r : List Char) :
    (l ++ c :: r).dropWhile isDigit = c :: r := by
  induction l with
  | nil => simp [hc]
  | cons a l ih =>
    rw [List.cons_append, List.dropWhile_cons_of_pos (hl a (by simp))]
    exact ih fun c h => hl c (by simp [h])

/-- The number that is read from the text of `n` tenths. -/
theorem lit_decimal (n : ℕ) : decimal (tenthsText n) = n / 10 := by
  have hd : n % 10 < 10 := Nat.mod_lt _ (by norm_num)
  have h1 : (tenthsText n).dropWhile isDigit = ['.', Char.ofNat (48 + n % 10)] := by
    refine lit_dropWhile (fun c hc => ?_) (by decide) _
    obtain ⟨e, he, rfl⟩ := showNat_digits _ c hc
    exact lit_digit he
  have h2 : digitsVal 0 (tenthsText n) = n / 10 := by
    rw [tenthsText, digitsVal_append (showNat_digits _), digitsVal_showNat]
    simp [digitsVal, show digitVal '.' = none by decide]
  have h3 : digitsVal 0 [Char.ofNat (48 + n % 10)] = n % 10 := by
    rw [digitsVal, digitVal_ofNat hd]; simp [digitsVal]
  have h4 : [Char.ofNat (48 + n % 10)].takeWhile isDigit = [Char.ofNat (48 + n % 10)] := by
    simp [List.takeWhile, lit_digit hd]
  rw [decimal, h1]
  simp only [h2, h3, h4]
  have h5 : (n : ℝ) = 10 * (n / 10 : ℕ) + (n % 10 : ℕ) := by exact_mod_cast (Nat.div_add_mod n 10).symm
  rw [h5]
  simp only [List.length_singleton, pow_one]
  have h6 : (10 * (n / 10) + n % 10) / 10 = n / 10 := by omega
  ring

theorem lit_last (l : List Char) : (l ++ ['M']).getLast? = some 'M' := by simp

/-! ## Rounding -/

theorem lit_round {rn : ℝ → ℝ} (h : double.Rounds rn) (z : ℝ) : |z - rn z| ≤ |z| / 2 ^ 53 + 1 / 2 ^ 60 := by
  have h1 := abs_error (F := double) (by decide) (h z)
  have h2 : double.u * |z| = |z| / 2 ^ 53 := by simp [Fmt.u, double]; ring
  have h3 : double.eta ≤ 1 / 2 ^ 60 := by
    have : (2 : ℝ) ^ (-1074 : ℤ) ≤ 2 ^ (-60 : ℤ) := zpow_le_zpow_right₀ (by norm_num) (by norm_num)
    simp only [Fmt.eta, double]
    have h60 : (2 : ℝ) ^ (-60 : ℤ) = 1 / 2 ^ 60 := by norm_num
    rw [h60] at this
    have := two_zpow_pos (-1074)
    linarith
  linarith

/-- Integers and halves are exact. -/
theorem lit_int {m : ℤ} (hm : |m| ≤ 2 ^ 53) : double.Rep m := ⟨m, 0, by simp, hm, by decide⟩

theorem lit_half {m : ℤ} (hm : |m| ≤ 2 ^ 53) : double.Rep (m / 2) :=
  ⟨m, -1, by rw [zpow_neg_one]; ring, hm, by decide⟩

theorem lit_first {rn : ℝ → ℝ} (h : double.Rounds rn) {n : ℕ} (hn : n < 30000) :
    |rn (rn (n / 10) * 1000000) - n * 100000| < 1 / 1000 := by
  have hn' : (n : ℝ) ≤ 30000 := by exact_mod_cast hn.le
  have hn0 : (0 : ℝ) ≤ n := Nat.cast_nonneg n
  have h1 := lit_round h (n / 10)
  set a := rn (n / 10)
  have h2 := lit_round h (a * 1000000)
  set x := rn (a * 1000000)
  rw [abs_of_nonneg (by positivity : (0 : ℝ) ≤ n / 10)] at h1
  have h3 : |n / 10 - a| ≤ 1 / 2 ^ 40 := by
    refine h1.trans ?_
    have : (n : ℝ) / 10 / 2 ^ 53 ≤ 3000 / 2 ^ 53 := by
      apply div_le_div_of_nonneg_right _ (by positivity); linarith
    refine (add_le_add_left this _).trans (by norm_num)
  rw [abs_le] at h3
  have h4 : |a * 1000000| ≤ 2 ^ 32 := by
    rw [abs_le]; constructor <;> norm_num at h3 ⊢ <;> linarith
  have h5 : |a * 1000000 - x| ≤ 1 / 2 ^ 20 := by
    refine h2.trans ?_
    have : |a * 1000000| / 2 ^ 53 ≤ 2 ^ 32 / 2 ^ 53 := div_le_div_of_nonneg_right h4 (by positivity)
    refine (add_le_add_left this _).trans (by norm_num)
  rw [abs_le] at h5
  rw [abs_lt]; constructor <;> norm_num at h3 h5 ⊢ <;> linarith

theorem lit_nonneg {rn : ℝ → ℝ} (h : double.Rounds rn) {z : ℝ} (hz : 0 ≤ z) : 0 ≤ rn z := (h z).ge rep_zero hz

/-- The number of terms is off by at most one. -/
theorem lit_floor {rn : ℝ → ℝ} (h : double.Rounds rn) {n : ℕ} (hn : n < 30000) :
    ⌊rn (rn (n / 10) * 1000000)⌋₊ = n * 100000 ∨ ⌊rn (rn (n / 10) * 1000000)⌋₊ + 1 = n * 100000 := by
  have h0 : 0 ≤ rn (rn (n / 10) * 1000000) := lit_nonneg h (mul_nonneg (lit_nonneg h (by positivity)) (by norm_num))
  have h1 := abs_lt.mp (lit_first h hn)
  set x := rn (rn (n / 10) * 1000000)
  by_cases hx : (n : ℝ) * 100000 ≤ x
  · left
    rw [Nat.floor_eq_iff h0]
    push_cast
    exact ⟨hx, by linarith⟩
  · right
    rw [not_le] at hx
    have hn1 : 1 ≤ n * 100000 := by
      rcases Nat.eq_zero_or_pos n with rfl | hp
      · simp at hx; linarith
      · omega
    have h2 : ⌊x⌋₊ = n * 100000 - 1 := by
      rw [Nat.floor_eq_iff h0, Nat.cast_sub hn1]
      push_cast
      constructor <;> linarith
    omega

/-- The last assertion holds for every number of terms that is off by at most one. -/
theorem lit_text {rn : ℝ → ℝ} (h : double.Rounds rn) {n t : ℕ} (hn : n < 30000) (ht : t = n * 100000 ∨ t + 1 = n * 100000) :
    text (rn (rn (1 / 1000000) * t)) = tenthsText n := by
  have ht1 : (t : ℝ) ≤ n * 100000 ∧ (n : ℝ) * 100000 - 1 ≤ t := by
    rcases ht with h | h
    · rw [h]; push_cast; constructor <;> linarith
    · have : (t : ℝ) + 1 = n * 100000 := by exact_mod_cast h
      constructor <;> linarith
  have hn' : (n : ℝ) ≤ 30000 := by exact_mod_cast hn.le
  have ht0 : (0 : ℝ) ≤ t := Nat.cast_nonneg t
  have ht2 : (t : ℝ) ≤ 2 ^ 32 := by
    rw [show (2 : ℝ) ^ 32 = 4294967296 by norm_num]; linarith [ht1.1]
  have h1 := lit_round h (1 / 1000000)
  set c := rn (1 / 1000000)
  rw [abs_of_pos (by norm_num : (0 : ℝ) < 1 / 1000000)] at h1
  have h1' : |1 / 1000000 - c| ≤ 1 / 2 ^ 58 := h1.trans (by norm_num)
  have h2 := lit_round h (c * t)
  set y := rn (c * t)
  have h3 : |1 / 1000000 * t - c * t| ≤ 1 / 2 ^ 26 := by
    rw [← sub_mul, abs_mul, abs_of_nonneg ht0]
    calc |1 / 1000000 - c| * (t : ℝ) ≤ 1 / 2 ^ 58 * 2 ^ 32 := mul_le_mul h1' ht2 ht0 (by positivity)
      _ = 1 / 2 ^ 26 := by norm_num
  rw [abs_le] at h3
  have h4 : |c * t| ≤ 2 ^ 13 := by
    rw [abs_le]; constructor <;> norm_num at h3 ht2 ⊢ <;> linarith [ht1.1]
  have h5 : |c * t - y| ≤ 1 / 2 ^ 30 := by
    refine h2.trans ?_
    have : |c * t| / 2 ^ 53 ≤ 2 ^ 13 / 2 ^ 53 := div_le_div_of_nonneg_right h4 (by positivity)
    refine (add_le_add_left this _).trans (by norm_num)
  rw [abs_le] at h5
  have h6 : |10 * y - (n : ℤ)| < 1 / 2 := by
    push_cast
    rw [abs_lt]; constructor <;> norm_num at h3 h5 ⊢ <;> linarith [ht1.1, ht1.2]
  have h7 := roundEven_nearest (10 * y) n
  have h8 : roundEven (10 * y) = n := by
    have h9 : |((roundEven (10 * y) - n : ℤ) : ℝ)| < 1 := by
      push_cast
      have := abs_lt.mp (h7.trans_lt h6)
      have := abs_lt.mp h6
      push_cast at this
      rw [abs_lt]; constructor <;> linarith
    have h10 : |roundEven (10 * y) - n| < 1 := by exact_mod_cast h9
    have := Int.abs_lt_one_iff.mp h10
    omega
  rw [text, h8, Int.toNat_natCast]

/-- The parser after its first assertion. -/
theorem lit_run {rn : ℝ → ℝ} (h : double.Rounds rn) {n : ℕ} (hn : n < 30000) (hx : rn (rn (n / 10) * 1000000) < 2 ^ 31) (v : ℝ) :
    bittner rn (tenthsText n ++ ['M']) v = .ok ⟨⌊rn (rn (n / 10) * 1000000)⌋₊, v⟩ := by
  unfold bittner
  rw [slowAssert_true (lit_last _), List.dropLast_concat, lit_decimal]
  simp only [not_le.mpr hx, if_false]
  rw [slowAssert_true (by rw [lit_text h hn (lit_floor h hn)])]
  rfl

/-! ## Theorems -/

/-- **C81.** A literal of at most 2147.4 million terms, with one decimal, is accepted, and the number of terms is the one that is written or one
less. -/
theorem C81_near {rn : ℝ → ℝ} (h : double.Rounds rn) {n : ℕ} (hn : n ≤ 21474) (v : ℝ) :
    ∃ t, bittner rn (tenthsText n ++ ['M']) v = .ok ⟨t, v⟩ ∧ (t = n * 100000 ∨ t + 1 = n * 100000) := by
  have h1 := abs_lt.mp (lit_first h (n := n) (by omega))
  have hn' : (n : ℝ) ≤ 21474 := by exact_mod_cast hn
  exact ⟨_, lit_run h (by omega) (by norm_num; linarith) v, lit_floor h (by omega)⟩

/-- **C81.** Whatever string without a minus in front (which the model leaves out) is accepted: it is a number with one decimal and an `M`, and the number of terms is the one that is written or one
less. -/
theorem C81_accepted {rn : ℝ → ℝ} (h : double.Rounds rn) {s : List Char} {v : ℝ} {b : Bittner} (_hs : s.head? ≠ some '-')
    (hb : bittner rn s v = .ok b) :
    b.value = v ∧ b.terms < 2 ^ 31 ∧ ∃ n : ℕ, s = tenthsText n ++ ['M'] ∧ (b.terms = n * 100000 ∨ b.terms + 1 = n * 100000) := by
  unfold bittner at hb
  by_cases h1 : s.getLast? = some 'M'
  swap
  · rw [slowAssert_false h1] at hb; exact absurd hb (by simp [bind, Except.bind])
  rw [slowAssert_true h1] at hb
  simp only [bind, Except.bind] at hb
  split_ifs at hb with h2
  rw [not_le] at h2
  set x := rn (rn (decimal s.dropLast) * 1000000) with hx
  by_cases h3 : s = text (rn (rn (1 / 1000000) * (⌊x⌋₊ : ℕ))) ++ ['M']
  swap
  · rw [slowAssert_false h3] at hb; exact absurd hb (by simp)
  rw [slowAssert_true h3] at hb
  have hb' : b = ⟨⌊x⌋₊, v⟩ := by
    have := Except.ok.inj hb
    exact this.symm
  obtain ⟨n, hs⟩ : ∃ n, s = tenthsText n ++ ['M'] := ⟨_, h3⟩
  have hx' : x = rn (rn (n / 10) * 1000000) := by rw [hx, hs, List.dropLast_concat, lit_decimal]
  have hn : n < 30000 := by
    by_contra hc
    have hc' : (30000 : ℝ) ≤ n := by exact_mod_cast not_lt.mp hc
    have h4 : ((3000 : ℤ) : ℝ) ≤ rn (n / 10) := (h _).ge (lit_int (by norm_num)) (by push_cast; linarith)
    have h5 : ((2 ^ 31 : ℤ) : ℝ) ≤ x := by
      rw [hx']
      refine (h _).ge (lit_int (by norm_num)) ?_
      push_cast at h4 ⊢
      linarith
    push_cast at h5
    linarith
  rw [hb']
  refine ⟨rfl, ?_, n, hs, ?_⟩
  · have : ((⌊x⌋₊ : ℕ) : ℝ) < 2 ^ 31 := by
      refine (Nat.floor_le ?_).trans_lt h2
      rw [hx']
      exact lit_nonneg h (mul_nonneg (lit_nonneg h (by positivity)) (by norm_num))
    exact_mod_cast this
  · change ⌊x⌋₊ = _ ∨ ⌊x⌋₊ + 1 = _
    rw [hx']
    exact lit_floor h hn

/-- **C81.** A multiple of half a million gives the number of terms that is written, for every rounding to nearest. -/
theorem C81_halves {rn : ℝ → ℝ} (h : double.Rounds rn) {j : ℕ} (hj : 5 * j ≤ 21474) (v : ℝ) :
    bittner rn (tenthsText (5 * j) ++ ['M']) v = .ok ⟨500000 * j, v⟩ := by
  have h1 : rn ((5 * j : ℕ) / 10) = (j : ℤ) / 2 := by
    have e : (((5 * j : ℕ) : ℝ) / 10) = ((j : ℤ) : ℝ) / 2 := by push_cast; ring
    rw [e]
    exact (h _).eq_of_rep (lit_half (by rw [abs_of_nonneg (by positivity)]; norm_num; omega))
  have h2 : rn (((j : ℤ) : ℝ) / 2 * 1000000) = (500000 * j : ℕ) := by
    have e : ((j : ℤ) : ℝ) / 2 * 1000000 = ((500000 * j : ℤ) : ℝ) := by push_cast; ring
    rw [e, (h _).eq_of_rep (lit_int (by rw [abs_of_nonneg (by positivity)]; norm_num; omega))]
    push_cast; ring
  have hj' : (j : ℝ) ≤ 4294 := by exact_mod_cast (by omega : j ≤ 4294)
  rw [lit_run h (by omega) (by rw [h1, h2]; push_cast; norm_num; linarith), h1, h2, Nat.floor_natCast]

/-- **C81.** The table of /repo/known.cc 15-26: the literals give the numbers of terms `bittnerTerms`. -/
theorem C81_table {rn : ℝ → ℝ} (h : double.Rounds rn) (v : ℝ) :
    ["0.5M", "1.0M", "1.5M", "2.0M", "2.5M", "3.0M", "3.5M", "4.0M", "4.5M", "5.0M"].map (fun s => bittner rn s.toList v) =
      bittnerTerms.map fun t => .ok ⟨t, v⟩ := by
  have e : ["0.5M", "1.0M", "1.5M", "2.0M", "2.5M", "3.0M", "3.5M", "4.0M", "4.5M", "5.0M"].map String.toList =
      (List.range 10).map fun i => tenthsText (5 * (i + 1)) ++ ['M'] := by
    rw [show List.range 10 = [0, 1, 2, 3, 4, 5, 6, 7, 8, 9] by decide]
    simp only [List.map]
    simp [tenthsText, showNat]
  rw [show (fun s : String => bittner rn s.toList v) = (fun l => bittner rn l v) ∘ String.toList from rfl, ← List.map_map, e, List.map_map]
  have e2 : bittnerTerms = (List.range 10).map fun i => 500000 * (i + 1) := by decide
  rw [e2, List.map_map]
  refine List.map_congr_left fun i hi => ?_
  exact C81_halves h (by have := List.mem_range.mp hi; omega) v

/-- **C81.** The last assertion does not notice a lost unit: the literal `4.1M` is accepted as 4099999 terms, for every rounding to nearest. -/
theorem C81_lost_witness {rn : ℝ → ℝ} (h : double.Rounds rn) (v : ℝ) : bittner rn "4.1M".toList v = .ok ⟨4099999, v⟩ := by
  have e : "4.1M".toList = tenthsText 41 ++ ['M'] := by simp [tenthsText, showNat]
  have h1 : rn ((41 : ℕ) / 10) = ((4616189618054758 : ℤ) : ℝ) * (2 : ℝ) ^ (-50 : ℤ) := by
    have hr : double.Rep (((4616189618054758 : ℤ) : ℝ) * (2 : ℝ) ^ (-50 : ℤ)) := ⟨_, -50, rfl, by norm_num [double], by decide⟩
    have ha := h ((41 : ℕ) / 10)
    set a := rn ((41 : ℕ) / 10)
    have hle : ((4616189618054758 : ℤ) : ℝ) * (2 : ℝ) ^ (-50 : ℤ) ≤ a := ha.ge hr (by norm_num)
    obtain ⟨k, -, hk, hb⟩ := ha.1.mult
    have hk50 : (-50 : ℤ) ≤ k := by
      by_contra hc
      have : (2 : ℝ) ^ k ≤ 2 ^ (-51 : ℤ) := zpow_le_zpow_right₀ (by norm_num) (by omega)
      have h4 := (le_abs_self a).trans hb
      simp only [double] at h4
      norm_num at this hle h4
      linarith
    obtain ⟨j, hj⟩ := hk.mono hk50
    have hd := ha.2 _ hr
    have hj1 : j ≤ 4616189618054758 := by
      by_contra hc
      have hc' : ((4616189618054759 : ℤ) : ℝ) ≤ j := by exact_mod_cast (by omega : (4616189618054759 : ℤ) ≤ j)
      have h5 : ((4616189618054759 : ℤ) : ℝ) * (2 : ℝ) ^ (-50 : ℤ) ≤ a := by
        rw [hj]; exact mul_le_mul_of_nonneg_right hc' (two_zpow_pos _).le
      rw [abs_of_nonpos (by norm_num at h5 ⊢; linarith), abs_of_nonneg (by norm_num)] at hd
      norm_num at hd h5
      linarith
    refine le_antisymm ?_ hle
    rw [hj]
    exact mul_le_mul_of_nonneg_right (by exact_mod_cast hj1) (two_zpow_pos _).le
  have h2 := h (((4616189618054758 : ℤ) : ℝ) * (2 : ℝ) ^ (-50 : ℤ) * 1000000)
  set x := rn (((4616189618054758 : ℤ) : ℝ) * (2 : ℝ) ^ (-50 : ℤ) * 1000000) with hx
  have h3 : ((4099999 : ℤ) : ℝ) ≤ x := h2.ge (lit_int (by norm_num)) (by norm_num)
  have h4 : x < 4100000 := by
    by_contra hc
    have hc := not_lt.mp hc
    have hr : double.Rep (((8804682956799999 : ℤ) : ℝ) * (2 : ℝ) ^ (-31 : ℤ)) := ⟨_, -31, rfl, by norm_num [double], by decide⟩
    have hd := h2.2 _ hr
    rw [abs_of_nonpos (by norm_num; linarith), abs_of_nonneg (by norm_num)] at hd
    norm_num at hd
    linarith
  have h5 : ⌊x⌋₊ = 4099999 := by
    rw [Nat.floor_eq_iff (by push_cast at h3; linarith)]
    push_cast at h3 ⊢
    exact ⟨h3, by linarith⟩
  rw [e, lit_run h (by norm_num) (by rw [h1, ← hx]; norm_num; linarith), h1, ← hx, h5]

/-! ## The hypotheses can be met -/

/-- There are roundings to nearest, and the parser accepts literals under them. -/
example : bittner double.rne "2.5M".toList 1.69096 = .ok ⟨2500000, 1.69096⟩ := by
  have e : "2.5M".toList = tenthsText (5 * 5) ++ ['M'] := by simp [tenthsText, showNat]
  rw [e]
  exact C81_halves (rne_rounds (by decide)) (by norm_num) _

example : ∃ n : ℕ, "2.5M".toList = tenthsText n ++ ['M'] ∧ (2500000 = n * 100000 ∨ 2500000 + 1 = n * 100000) := by
  have e : "2.5M".toList = tenthsText (5 * 5) ++ ['M'] := by simp [tenthsText, showNat]
  exact (C81_accepted (rne_rounds (by decide)) (b := ⟨2500000, 0⟩) (by simp) (by rw [e]; exact C81_halves (rne_rounds (by decide)) (by norm_num) _)).2.2

example : ∃ t, bittner double.rne (tenthsText 123 ++ ['M']) 1.6 = .ok ⟨t, 1.6⟩ ∧ (t = 12300000 ∨ t + 1 = 12300000) :=
  C81_near (rne_rounds (by decide)) (by norm_num) _

end Mandelbrot.Props
