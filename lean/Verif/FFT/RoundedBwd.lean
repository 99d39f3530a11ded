import Verif.FFT.RoundedFwd

/-!
# The backward transform with rounding
-/

namespace Mandelbrot.FFT

open Complex Finset Mandelbrot.Spec

local notation "conj" => starRingEnd ℂ

variable {R : Type} [Zero R] {K : Codelets R} {val : R → ℝ} {κ : ℝ} {p : ℕ}

/-! ## Sums over blocks -/

/-- Sum of `a` over the block of `2^s` cells with cell `k`. -/
noncomputable def bs (s : ℕ) (a : ℕ → ℝ) (k : ℕ) : ℝ := ∑ i ∈ range (2 ^ s), a (k / 2 ^ s * 2 ^ s + i)

theorem bs_zero (a : ℕ → ℝ) (k : ℕ) : bs 0 a k = a k := by simp [bs]

theorem bs_at (s : ℕ) (a : ℕ → ℝ) {j : ℕ} (hj : j < 2 ^ s) (q : ℕ) :
    bs s a (q * 2 ^ s + j) = ∑ i ∈ range (2 ^ s), a (q * 2 ^ s + i) := by
  have : (q * 2 ^ s + j) / 2 ^ s = q := by
    rw [Nat.mul_comm, Nat.mul_add_div (by positivity), Nat.div_eq_of_lt hj, add_zero]
  rw [bs, this]

theorem bs_group (r s : ℕ) (a : ℕ → ℝ) {i j : ℕ} (hi : i < 2 ^ r) (hj : j < 2 ^ s) (q : ℕ) :
    ∑ i' ∈ range (2 ^ r), bs s a ((q * 2 ^ r + i') * 2 ^ s + j) = bs (s + r) a ((q * 2 ^ r + i) * 2 ^ s + j) := by
  have hlt : i * 2 ^ s + j < 2 ^ (s + r) := by
    have : (i + 1) * 2 ^ s ≤ 2 ^ r * 2 ^ s := Nat.mul_le_mul_right _ hi
    rw [Nat.add_mul, one_mul, ← pow_add, add_comm r] at this
    omega
  have e : (q * 2 ^ r + i) * 2 ^ s + j = q * 2 ^ (s + r) + (i * 2 ^ s + j) := by rw [pow_add]; ring
  rw [e, bs_at _ _ hlt, show 2 ^ (s + r) = 2 ^ r * 2 ^ s by rw [pow_add, Nat.mul_comm], sum_range_mul']
  refine sum_congr rfl fun i' _ => ?_
  rw [bs_at _ _ hj]
  refine sum_congr rfl fun k _ => ?_
  congr 1; ring

theorem bs_smul (s : ℕ) (c : ℝ) (a : ℕ → ℝ) (k : ℕ) : bs s (fun i => c * a i) k = c * bs s a k := by
  rw [bs, bs, mul_sum]

theorem bs_all {s : ℕ} (a : ℕ → ℝ) {k : ℕ} (hk : k < 2 ^ s) : bs s a k = ∑ i ∈ range (2 ^ s), a i := by
  have := bs_at s a hk 0
  simpa using this

/-- Cells bounded by the sums over their blocks. -/
def Maj (N s : ℕ) (a : ℕ → ℝ) (y : ℕ → ℂ) : Prop := ∀ k < N, ‖y k‖ ≤ bs s a k

theorem maj_levT {s N : ℕ} (hN : 2 * 2 ^ s ∣ N) {a : ℕ → ℝ} {y : ℕ → ℂ} (h : Maj N s a y) : Maj N (s + 1) a (levT s y) := by
  intro k hk
  obtain ⟨q, c, hc, hkk⟩ := block_cases s k
  have hcell : ∀ c' < 2 * 2 ^ s, bs (s + 1) a (q * (2 * 2 ^ s) + c') =
      bs s a (q * (2 * 2 ^ s) + c) + bs s a (q * (2 * 2 ^ s) + 2 ^ s + c) := by
    intro c' hc'
    rw [show q * (2 * 2 ^ s) + c' = q * 2 ^ (s + 1) + c' by rw [pow_succ']]
    rw [bs_at (s + 1) a (by rw [pow_succ']; exact hc'), pow_succ', two_mul, sum_range_add,
      show q * (2 ^ s + 2 ^ s) + c = (2 * q) * 2 ^ s + c by ring, show q * (2 ^ s + 2 ^ s) + 2 ^ s + c = (2 * q + 1) * 2 ^ s + c by ring,
      bs_at s a hc, bs_at s a hc]
    congr 1
    · exact sum_congr rfl fun i _ => by congr 1; ring
    · exact sum_congr rfl fun i _ => by congr 1; ring
  have hlt : q * (2 * 2 ^ s) + c < N := by rcases hkk with rfl | rfl <;> omega
  have hlt2 := partner_lt hN hc hlt
  have h1 := h _ hlt
  have h2 := h _ hlt2
  have hw : ‖conj (levF s c * y (q * (2 * 2 ^ s) + 2 ^ s + c))‖ = ‖y (q * (2 * 2 ^ s) + 2 ^ s + c)‖ := by
    rw [norm_conj, norm_mul, norm_one_of_unit (levF_unit s c), one_mul]
  rcases hkk with rfl | rfl
  · rw [hcell c (by omega)]
    unfold levT
    rw [levWT_lo _ _ _ _ hc]
    refine (norm_add_le _ _).trans ?_
    rw [hw]
    linarith
  · rw [show q * (2 * 2 ^ s) + 2 ^ s + c = q * (2 * 2 ^ s) + (2 ^ s + c) by ring, hcell (2 ^ s + c) (by omega)]
    unfold levT
    rw [show q * (2 * 2 ^ s) + (2 ^ s + c) = q * (2 * 2 ^ s) + 2 ^ s + c by ring, levWT_hi _ _ _ _ hc]
    refine (norm_sub_le _ _).trans ?_
    rw [hw]
    linarith

/-- Close to `y` relative to the sums over blocks. -/
structure CloseB (N s : ℕ) (g : ℝ) (a : ℕ → ℝ) (y' y : ℕ → ℂ) : Prop where
  err : Maj N s (fun i => (g - 1) * a i) fun k => y' k - y k
  maj : Maj N s a y

theorem CloseB.le {N s : ℕ} {g : ℝ} {a : ℕ → ℝ} {y' y : ℕ → ℂ} (h : CloseB N s g a y' y) {k : ℕ} (hk : k < N) :
    ‖y' k‖ ≤ g * bs s a k := by
  have h1 := h.err k hk
  have h2 := h.maj k hk
  rw [bs_smul] at h1
  have := norm_add_le (y' k - y k) (y k)
  rw [sub_add_cancel] at this
  linarith

/-- Linear operators that keep bounds by sums over blocks. -/
structure Keeps (N s s' : ℕ) (T : (ℕ → ℂ) → ℕ → ℂ) : Prop where
  maj : ∀ a y, Maj N s a y → Maj N s' a (T y)
  sub : ∀ y y' i, T y i - T y' i = T (fun k => y k - y' k) i

theorem Keeps.comp {N s s' s'' : ℕ} {T T' : (ℕ → ℂ) → ℕ → ℂ} (h : Keeps N s s' T) (h' : Keeps N s' s'' T') :
    Keeps N s s'' fun y => T' (T y) where
  maj a y hy := h'.maj a _ (h.maj a y hy)
  sub y y' i := by
    rw [h'.sub]
    congr 1
    funext k
    exact h.sub y y' k

theorem keeps_levT {s N : ℕ} (hN : 2 * 2 ^ s ∣ N) : Keeps N s (s + 1) (levT s) :=
  ⟨fun _ _ h => maj_levT hN h, fun y y' i => levWT_sub s _ y y' i⟩

theorem CloseB.pass {N s s' : ℕ} {g κ : ℝ} {a : ℕ → ℝ} {T : (ℕ → ℂ) → ℕ → ℂ} (hT : Keeps N s s' T) {y' y z : ℕ → ℂ}
    (h : CloseB N s g a y' y) (hz : ∀ k < N, ‖z k - T y' k‖ ≤ κ * (g * bs s' a k)) :
    CloseB N s' (g * (1 + κ)) a z (T y) := by
  refine ⟨fun k hk => ?_, hT.maj _ _ h.maj⟩
  have h1 := hT.maj _ _ h.err k hk
  have h2 := hz k hk
  rw [← hT.sub, bs_smul] at h1
  rw [bs_smul]
  have h3 := norm_add_le (z k - T y' k) (T y' k - T y k)
  rw [sub_add_sub_cancel] at h3
  have : (g * (1 + κ) - 1) * bs s' a k = κ * (g * bs s' a k) + (g - 1) * bs s' a k := by ring
  linarith

/-! ## The passes -/

theorem ilevel_pass (W : Within K val κ p) {r s cnt N : ℕ} (hr : r = 1 ∨ r = 2 ∨ r = 3) (hs : s + r ≤ p - 3)
    (hd : 2 ^ s ∣ cnt) (hN : cnt * 2 ^ r = N) {g : ℝ} {a : ℕ → ℝ} {y : ℕ → R × R} {y0 : ℕ → ℂ}
    (h : CloseB N s g a (fun k => cval val (y k)) y0) {k : ℕ} (hk : k < N) :
    ‖cval val (levelLoop r cnt s (K.ilevel r s) y k) -
        isrfftLevels r cnt (fun k => cval val (y k)) (slice (s + r - 1)) s k‖ ≤ κ * (g * bs (s + r) a k) := by
  subst hN
  obtain ⟨q, i, j, hi, hj, hq, rfl⟩ := pass_coords hk hd
  have e1 := levelLoop_at r cnt s (K.ilevel r s) y (fun j v v' h => W.ilevel_local r hr s j v v' h) hi hj hq
  have e2 := levelLoop_at r cnt s (fun j => transposeC (2 ^ r) (butterflyR r j (slice (s + r - 1))))
    (fun k => cval val (y k)) (fun j v v' h i _ => transposeC_congr h i) hi hj hq
  rw [e1]
  refine le_trans (le_of_eq ?_) ((W.ilevel r hr s hs j hj (fun i' => y ((q * 2 ^ r + i') * 2 ^ s + j)) i hi).trans ?_)
  · exact congrArg (fun z => ‖_ - z‖) e2
  · refine mul_le_mul_of_nonneg_left ?_ W.nonneg
    rw [← bs_group r s a hi hj q, mul_sum]
    refine sum_le_sum fun i' hi' => ?_
    refine h.le ?_
    have hi' := mem_range.1 hi'
    obtain ⟨Q, rfl⟩ := hd
    have hqQ : q < Q := by
      by_contra hc
      have : 2 ^ s * Q ≤ q * 2 ^ s := by rw [Nat.mul_comm]; exact Nat.mul_le_mul_right _ (by omega)
      omega
    have h1 : q * 2 ^ r + i' + 1 ≤ Q * 2 ^ r := by
      have : (q + 1) * 2 ^ r ≤ Q * 2 ^ r := Nat.mul_le_mul_right _ hqQ
      rw [Nat.add_mul, one_mul] at this
      omega
    have h2 : (q * 2 ^ r + i' + 1) * 2 ^ s ≤ Q * 2 ^ r * 2 ^ s := Nat.mul_le_mul_right _ h1
    rw [Nat.add_mul, one_mul] at h2
    have h3 : 2 ^ s * Q * 2 ^ r = Q * 2 ^ r * 2 ^ s := by ring
    omega

theorem isrfftLoopK_close (W : Within K val κ p) (hp : 3 ≤ p) (fuel s : ℕ) (hf : p - 3 ≤ s + fuel) (hs : s ≤ p - 3)
    (h3 : s = 0 ∨ (p - 3 - s) % 3 = 0) {g : ℝ} {a : ℕ → ℝ} {y : ℕ → R × R} {y0 : ℕ → ℂ}
    (h : CloseB (2 ^ (p - 1)) s g a (fun k => cval val (y k)) y0) :
    CloseB (2 ^ (p - 1)) (p - 3) (g * (1 + κ) ^ ((p - 3 - s + 2) / 3)) a
      (fun k => cval val (isrfftLoopK K (2 ^ p) p fuel s y k)) (levsUpFrom s (p - 3 - s) y0) := by
  have hdvd : ∀ s < p - 1, 2 * 2 ^ s ∣ 2 ^ (p - 1) := fun s hs => by
    rw [← pow_succ']; exact pow_dvd_pow 2 (by omega)
  induction fuel generalizing s y y0 g with
  | zero =>
    obtain rfl : s = p - 3 := by omega
    simpa [levsUpFrom, isrfftLoopK] using h
  | succ fuel ih =>
    rw [isrfftLoopK]
    by_cases hlt : s < p - 3
    · rw [if_pos hlt]
      by_cases h1 : s = 0 ∧ p % 3 = 1
      · rw [if_pos h1]
        obtain ⟨rfl, hp3⟩ := h1
        have h4 : 2 ^ p / 4 = 2 ^ (p - 2) := pow_div (a := 2) (by omega)
        have hN : 2 ^ (p - 2) * 2 ^ 1 = 2 ^ (p - 1) := by rw [← pow_add]; congr 1; omega
        have hx := isrfftLevels1_eq (s := 0) (cnt := 2 ^ (p - 2)) (by simp) (fun k => cval val (y k))
        rw [show 2 ^ (p - 2) * 2 = 2 ^ (p - 1) from hN] at hx
        rw [h4]
        have hc := h.pass (keeps_levT (hdvd 0 (by omega)))
          (z := fun k => cval val (levelLoop 1 (2 ^ (p - 2)) 0 (K.ilevel 1 0) y k)) (κ := κ) (fun k hk => by
            have := ilevel_pass W (r := 1) (s := 0) (by simp) (by omega) (by simp) hN h hk
            rw [← hx k hk]; exact this)
        have := ih 1 (by omega) (by omega) (Or.inr (by omega)) hc
        rw [← levsUpFrom_succ, show p - 3 - (0 + 1) + 1 = p - 3 - 0 by omega, mul_assoc, ← pow_succ',
          show (p - 3 - 1 + 2) / 3 + 1 = (p - 3 - 0 + 2) / 3 by omega] at this
        exact this
      · rw [if_neg h1]
        by_cases h2 : s = 0 ∧ p % 3 = 2
        · rw [if_pos h2]
          obtain ⟨rfl, hp3⟩ := h2
          have h8 : 2 ^ p / 8 = 2 ^ (p - 3) := pow_div (a := 3) (by omega)
          have hN : 2 ^ (p - 3) * 2 ^ 2 = 2 ^ (p - 1) := by rw [← pow_add]; congr 1; omega
          have hx := isrfftLevels2_eq (s := 0) (cnt := 2 ^ (p - 3)) (by simp) (fun k => cval val (y k))
          rw [show 2 ^ (p - 3) * 4 = 2 ^ (p - 1) from hN] at hx
          rw [h8]
          have hc := h.pass ((keeps_levT (hdvd 0 (by omega))).comp (keeps_levT (hdvd 1 (by omega))))
            (z := fun k => cval val (levelLoop 2 (2 ^ (p - 3)) 0 (K.ilevel 2 0) y k)) (κ := κ) (fun k hk => by
              have := ilevel_pass W (r := 2) (s := 0) (by simp) (by omega) (by simp) hN h hk
              rw [← hx k hk]; exact this)
          have := ih 2 (by omega) (by omega) (Or.inr (by omega)) hc
          rw [← levsUpFrom_succ, ← levsUpFrom_succ, show p - 3 - (0 + 2) + 1 + 1 = p - 3 - 0 by omega, mul_assoc,
            ← pow_succ', show (p - 3 - 0) / 3 + 1 = (p - 3 - 0 + 2) / 3 by omega] at this
          exact this
        · rw [if_neg h2]
          have h16 : 2 ^ p / 16 = 2 ^ (p - 4) := pow_div (a := 4) (by omega)
          have hN : 2 ^ (p - 4) * 2 ^ 3 = 2 ^ (p - 1) := by rw [← pow_add]; congr 1; omega
          have hds : 2 ^ s ∣ 2 ^ (p - 4) := pow_dvd_pow 2 (by omega)
          have hx := isrfftLevels3_eq (s := s) (cnt := 2 ^ (p - 4)) hds (fun k => cval val (y k))
          rw [show 2 ^ (p - 4) * 8 = 2 ^ (p - 1) from hN] at hx
          rw [h16]
          have hc := h.pass (((keeps_levT (hdvd s (by omega))).comp (keeps_levT (hdvd (s + 1) (by omega)))).comp
              (keeps_levT (hdvd (s + 2) (by omega))))
            (z := fun k => cval val (levelLoop 3 (2 ^ (p - 4)) s (K.ilevel 3 s) y k)) (κ := κ) (fun k hk => by
              have := ilevel_pass W (r := 3) (s := s) (by simp) (by omega) hds hN h hk
              rw [← hx k hk]; exact this)
          have := ih (s + 3) (by omega) (by omega) (Or.inr (by omega)) hc
          have e : p - 3 - s = p - 3 - (s + 3) + 1 + 1 + 1 := by omega
          rw [mul_assoc, ← pow_succ', show (p - 3 - (s + 3) + 2) / 3 + 1 = (p - 3 - s + 2) / 3 by omega,
            ← levsUpFrom_succ (s + 2), ← levsUpFrom_succ (s + 1), ← levsUpFrom_succ s, ← e] at this
          exact this
    · rw [if_neg hlt]
      obtain rfl : s = p - 3 := by omega
      simpa [levsUpFrom] using h

/-! ## The last pass -/

/-- The last pass in exact arithmetic. -/
noncomputable def lst (p : ℕ) (c : ℕ → ℂ) : ℕ → ℝ :=
  if p = 1 then b0T 1 c
  else if p = 2 then b0T 2 (b1WT 1 (facA 2) (facB 2) c)
  else b0T (2 ^ (p - 1)) (b1WT (2 ^ (p - 2)) (facA p) (facB p) (levT (p - 3) c))

theorem bwd_eq_lst (hp : 1 ≤ p) (c : ℕ → ℂ) : bwd p c = lst p (levsUpFrom 0 (p - 3) c) := by
  unfold bwd lst
  by_cases h1 : p = 1
  · subst h1; rfl
  · rw [if_neg h1, if_neg h1]
    by_cases h2 : p = 2
    · subst h2; rfl
    · rw [if_neg h2, show p - 2 = p - 3 + 1 by omega, levsUpFrom, Nat.zero_add]

theorem lst_sub (p : ℕ) (c c' : ℕ → ℂ) (k : ℕ) : lst p c k - lst p c' k = lst p (fun k => c k - c' k) k := by
  unfold lst
  split_ifs
  · exact b0T_sub _ _ _ _
  · rw [b0T_sub]
    congr 1
    funext k
    exact b1WT_sub _ _ _ _ _ _
  · rw [b0T_sub]
    congr 1
    funext k
    rw [b1WT_sub]
    congr 1
    funext k
    exact levWT_sub _ _ _ _ _

theorem b0T_le {N : ℕ} {c : ℕ → ℂ} {B : ℝ} (h : ∀ k < N, ‖c k‖ ≤ B) {k : ℕ} (hk : k < 2 * N) : |b0T N c k| ≤ B := by
  unfold b0T
  split_ifs with h1
  · exact (Complex.abs_re_le_norm _).trans (h k h1)
  · rw [abs_neg]
    exact (Complex.abs_im_le_norm _).trans (h _ (by omega))

theorem b1WT_le {M p : ℕ} {c : ℕ → ℂ} {B B' : ℝ} (h : ∀ k < M, ‖c k‖ ≤ B) (h' : ∀ k < M, ‖c (k + M)‖ ≤ B') {k : ℕ}
    (hk : k < 2 * M) : ‖b1WT M (facA p) (facB p) c k‖ ≤ B + B' := by
  unfold b1WT
  split_ifs with h1
  · refine (norm_add_le _ _).trans ?_
    rw [norm_mul, norm_conj, norm_facA, one_mul, norm_conj, norm_mul, norm_facB, one_mul]
    exact add_le_add (h k h1) (h' k h1)
  · rw [norm_mul, norm_E8, one_mul]
    refine (norm_sub_le _ _).trans ?_
    rw [norm_mul, norm_conj, norm_facA, one_mul, norm_conj, norm_mul, norm_facB, one_mul]
    have := h' (k - M) (by omega)
    rw [Nat.sub_add_cancel (by omega)] at this
    exact add_le_add (h _ (by omega)) this

theorem lst_le (hp : 1 ≤ p) {a : ℕ → ℝ} {y : ℕ → ℂ} (h : Maj (2 ^ (p - 1)) (p - 3) a y) {k : ℕ} (hk : k < 2 ^ p) :
    |lst p y k| ≤ ∑ i ∈ range (2 ^ (p - 1)), a i := by
  unfold lst
  by_cases h1 : p = 1
  · subst h1
    rw [if_pos rfl]
    refine b0T_le (N := 1) (fun k hk => ?_) (by simpa using hk)
    obtain rfl : k = 0 := by omega
    have := h 0 (by norm_num)
    simpa [bs] using this
  · rw [if_neg h1]
    by_cases h2 : p = 2
    · subst h2
      rw [if_pos rfl]
      refine b0T_le (N := 2) (fun k hk => ?_) (by simpa using hk)
      have e : ∑ i ∈ range (2 ^ (2 - 1)), a i = a 0 + a 1 := by simp [sum_range_succ]
      rw [e]
      have h0 := h 0 (by norm_num)
      have h1 := h 1 (by norm_num)
      rw [bs_zero] at h0 h1
      exact b1WT_le (M := 1) (fun k hk => by obtain rfl : k = 0 := by omega
                                             exact h0)
        (fun k hk => by obtain rfl : k = 0 := by omega
                        exact h1) hk
    · rw [if_neg h2]
      obtain ⟨s, rfl⟩ := Nat.exists_eq_add_of_le' (show 3 ≤ p by omega)
      rw [show s + 3 - 1 = s + 2 by omega, show s + 3 - 2 = s + 1 by omega, show s + 3 - 3 = s by omega] at *
      have hm := maj_levT (N := 2 ^ (s + 2)) (by rw [← pow_succ']; exact pow_dvd_pow 2 (by omega)) h
      have e2 : 2 ^ (s + 2) = 2 * 2 ^ (s + 1) := by rw [← pow_succ']
      refine b0T_le (N := 2 ^ (s + 2)) (fun k hk => ?_) (by rw [← pow_succ']; exact hk)
      rw [e2, two_mul, sum_range_add]
      refine b1WT_le (fun k hk => ?_) (fun k hk => ?_) (by rw [← e2]; exact hk)
      · have := hm k (by omega)
        rwa [bs_all a hk] at this
      · have := hm (k + 2 ^ (s + 1)) (by omega)
        rw [show k + 2 ^ (s + 1) = 1 * 2 ^ (s + 1) + k by ring, bs_at _ _ hk] at this
        simpa [add_comm] using this

/-- One cell of the last pass of the exact program. -/
theorem last_eq_lst (hp : 1 ≤ p) (c : ℕ → ℂ) {k : ℕ} (hk : k < 2 ^ p) :
    transposeR (2 ^ firstRadix p / 2)
        (firstLevels (firstRadix p) (k % 2 ^ (p - firstRadix p)) (2 ^ (p - firstRadix p)) (1 <<< (p - 3)) (root p))
        (fun i => c (k % 2 ^ (p - firstRadix p) + i * 2 ^ (p - firstRadix p))) (k / 2 ^ (p - firstRadix p)) =
      lst p c k := by
  unfold lst firstRadix
  by_cases h3 : 3 ≤ p
  · rw [if_neg (by omega), if_neg (by omega), show min p 3 = 3 by omega]
    exact levWT_first h3 (fun k => rfl) c hk
  · obtain rfl | rfl : p = 1 ∨ p = 2 := by omega
    · rw [if_pos rfl]
      simp only [show min 1 3 = 1 by norm_num, Nat.sub_self, pow_zero, Nat.mod_one, Nat.div_one, zero_add, mul_one]
      exact firstLevels1_T _ _ _ _ _ (by simpa using hk)
    · rw [if_neg (by norm_num), if_pos rfl]
      simp only [show min 2 3 = 2 by norm_num, Nat.sub_self, pow_zero, Nat.mod_one, Nat.div_one, zero_add, mul_one]
      refine (firstLevels2_T _ _ _ _ _ (by simpa using hk)).trans ?_
      have hk4 : k < 4 := by simpa using hk
      interval_cases k <;> simp [b0T, b1WT, b1A, b1B, facA, facB, root]

theorem last_pass (W : Within K val κ p) (hp : 1 ≤ p) {g : ℝ} {a : ℕ → ℝ} {y : ℕ → R × R} {y0 : ℕ → ℂ}
    (h : CloseB (2 ^ (p - 1)) (p - 3) g a (fun k => cval val (y k)) y0) {k : ℕ} (hk : k < 2 ^ p) :
    |val (K.last p (k % 2 ^ (p - firstRadix p)) (fun i => y (k % 2 ^ (p - firstRadix p) + i * 2 ^ (p - firstRadix p)))
        (k / 2 ^ (p - firstRadix p))) - lst p y0 k| ≤
      (g * (1 + κ) - 1) * ∑ i ∈ range (2 ^ (p - 1)), a i := by
  have hr : 1 ≤ firstRadix p ∧ firstRadix p ≤ 3 ∧ firstRadix p ≤ p := by unfold firstRadix; omega
  have hs : p - firstRadix p = p - 3 := by unfold firstRadix; omega
  have e1 := last_eq_lst hp (fun k => cval val (y k)) hk
  rw [hs] at e1 ⊢
  have hm : 0 < 2 ^ (p - 3) := by positivity
  have hj := Nat.mod_lt k hm
  have hi : k / 2 ^ (p - 3) < 2 ^ firstRadix p := by
    refine Nat.div_lt_of_lt_mul ?_
    rw [← hs, ← pow_add, show p - firstRadix p + firstRadix p = p by omega]
    exact hk
  have hl := W.last hp (k % 2 ^ (p - 3)) (by rw [hs]; exact hj)
    (fun i => y (k % 2 ^ (p - 3) + i * 2 ^ (p - 3))) (k / 2 ^ (p - 3)) hi
  rw [hs, e1] at hl
  have hsum : ∑ i ∈ range (2 ^ firstRadix p / 2), ‖cval val (y (k % 2 ^ (p - 3) + i * 2 ^ (p - 3)))‖ ≤
      g * ∑ i ∈ range (2 ^ (p - 1)), a i := by
    have ho : 2 ^ firstRadix p / 2 = 2 ^ (firstRadix p - 1) := pow_div (a := 1) hr.1
    have hN : 2 ^ (p - 1) = 2 ^ (firstRadix p - 1) * 2 ^ (p - 3) := by
      rw [← pow_add, ← hs]; congr 1; omega
    rw [ho, hN, sum_range_mul', mul_sum]
    refine sum_le_sum fun i hi => ?_
    have hi := mem_range.1 hi
    rw [add_comm, ← bs_at _ _ hj]
    refine h.le ?_
    have : (i + 1) * 2 ^ (p - 3) ≤ 2 ^ (firstRadix p - 1) * 2 ^ (p - 3) := Nat.mul_le_mul_right _ hi
    rw [← hN, Nat.add_mul, one_mul] at this
    omega
  have h2 := lst_le hp h.err hk
  rw [← lst_sub, ← mul_sum] at h2
  have h3 := mul_le_mul_of_nonneg_left hsum W.nonneg
  have h4 := abs_add_le (val (K.last p (k % 2 ^ (p - 3)) (fun i => y (k % 2 ^ (p - 3) + i * 2 ^ (p - 3)))
        (k / 2 ^ (p - 3))) - lst p (fun k => cval val (y k)) k) (lst p (fun k => cval val (y k)) k - lst p y0 k)
  rw [sub_add_sub_cancel] at h4
  nlinarith

/-- The backward transform with rounding: what is in every cell. -/
theorem isrfftScrambleK_close {lim : ℕ∞} (W : Within K val κ p) (hp : 1 ≤ p) (hlim : p ≤ 2 ∨ (p : ℕ∞) < lim) (add : Bool)
    {xn : ℕ} (hx : xn ≤ 2 * 2 ^ p) (x : ℕ → R) (y : ℕ → R × R) :
    ∃ (x' v : ℕ → R), isrfftScrambleK K lim add xn x (2 ^ (p - 1)) y = .ok x' ∧
      (∀ k, x' k = if k < 2 ^ p ∧ k < xn then (if add then K.add (x k) (v k) else v k) else x k) ∧
      ∀ k < 2 ^ p, |val (v k) - bwd p (fun k => cval val (y k)) k| ≤
        ((1 + κ) ^ passes p - 1) * ∑ i ∈ range (2 ^ (p - 1)), ‖cval val (y i)‖ := by
  have hn : 2 * 2 ^ (p - 1) = 2 ^ p := by rw [← pow_succ', Nat.sub_add_cancel hp]
  have hn0 : 2 ^ p ≠ 0 := by positivity
  have h0 : CloseB (2 ^ (p - 1)) 0 1 (fun i => ‖cval val (y i)‖) (fun k => cval val (y k)) fun k => cval val (y k) := by
    refine ⟨fun k _ => ?_, fun k _ => ?_⟩
    · rw [bs_zero]; simp
    · rw [bs_zero]
  rw [bwd_eq_lst hp]
  by_cases h3 : 3 ≤ p
  · obtain ⟨tw, htw, -⟩ := bigSlice_eq (lim := lim) (s := p) (by omega) (hlim.resolve_left (by omega))
    have h8 : 2 ^ p / 8 = 2 ^ (p - 3) := pow_div (a := 3) (by omega)
    have hr : firstRadix p = 3 := by unfold firstRadix; omega
    have hl := isrfftLoopK_close W h3 p 0 (by omega) (by omega) (Or.inl rfl) h0
    refine ⟨lastLoop (if add then some K.add else none) 8 (2 ^ (p - 3)) (K.last p) (isrfftLoopK K (2 ^ p) p p 0 y) xn x,
      fun k => K.last p (k % 2 ^ (p - 3)) (fun i => isrfftLoopK K (2 ^ p) p p 0 y (k % 2 ^ (p - 3) + i * 2 ^ (p - 3)))
        (k / 2 ^ (p - 3)), ?_, fun k => ?_, fun k hk => ?_⟩
    · simp only [isrfftScrambleK, hn, if_neg hn0, countrZero64_pow]
      rw [slowAssert_true ⟨trivial, hx⟩, bok]
      obtain ⟨q, rfl⟩ := Nat.exists_eq_add_of_le' h3
      simp only [htw, bok, h8]
    rotate_left
    · have := last_pass W hp hl hk
      rw [Nat.sub_zero, hr, one_mul, ← pow_succ] at this
      exact this
    · rw [lastLoop_at, show (8 : ℕ) = 2 ^ 3 by norm_num, ← pow_add, show p - 3 + 3 = p by omega]
      cases add <;> rfl
  · obtain rfl | rfl : p = 1 ∨ p = 2 := by omega
    · refine ⟨lastLoop (if add then some K.add else none) 2 1 (K.last 1) y xn x,
        fun k => K.last 1 (k % 1) (fun i => y (k % 1 + i * 1)) (k / 1), ?_, fun k => ?_, fun k hk => ?_⟩
      · simp only [isrfftScrambleK, hn, if_neg hn0, countrZero64_pow]
        rw [slowAssert_true ⟨trivial, hx⟩]
        rfl
      · rw [lastLoop_at]
        cases add <;> rfl
      · have := last_pass W hp h0 hk
        simpa [firstRadix, passes, levsUpFrom] using this
    · refine ⟨lastLoop (if add then some K.add else none) 4 1 (K.last 2) y xn x,
        fun k => K.last 2 (k % 1) (fun i => y (k % 1 + i * 1)) (k / 1), ?_, fun k => ?_, fun k hk => ?_⟩
      · simp only [isrfftScrambleK, hn, if_neg hn0, countrZero64_pow]
        rw [slowAssert_true ⟨trivial, hx⟩]
        rfl
      · rw [lastLoop_at]
        cases add <;> rfl
      · have := last_pass W hp h0 hk
        simpa [firstRadix, passes, levsUpFrom] using this

/-- The exact backward transform is bounded by the sum of the absolute values. -/
theorem bwd_le (hp : 1 ≤ p) (c c' : ℕ → ℂ) {k : ℕ} (hk : k < 2 ^ p) :
    |bwd p c k - bwd p c' k| ≤ ∑ i ∈ range (2 ^ (p - 1)), ‖c i - c' i‖ := by
  have hkeep : ∀ d ≤ p - 3, Keeps (2 ^ (p - 1)) 0 d (levsUpFrom 0 d) := by
    intro d hd
    induction d with
    | zero => exact ⟨fun _ _ h => h, fun _ _ _ => rfl⟩
    | succ d ih =>
      have := (ih (by omega)).comp (keeps_levT (s := d) (N := 2 ^ (p - 1)) (by
        rw [← pow_succ']; exact pow_dvd_pow 2 (by omega)))
      simpa [levsUpFrom] using this
  have hk2 := hkeep (p - 3) le_rfl
  rw [bwd_eq_lst hp, bwd_eq_lst hp, lst_sub]
  refine lst_le hp (a := fun i => ‖c i - c' i‖) ?_ hk
  have := hk2.maj (fun i => ‖c i - c' i‖) (fun i => c i - c' i) (fun k _ => by rw [bs_zero])
  intro i hi
  have h1 := this i hi
  rw [← hk2.sub] at h1
  exact h1

end Mandelbrot.FFT
