import Verif.FFT.Rounded
import Verif.FFT.Norm
import Verif.FFT.Mul

/-!
# One pass with rounding
-/

namespace Mandelbrot.FFT

open Complex Finset

local notation "conj" => starRingEnd ℂ

/-! ## What the loops leave in every cell -/

theorem firstLoop_at {α β : Type} [Zero α] (outs cnt : ℕ) (f : ℕ → (ℕ → α) → ℕ → β) (y : ℕ → β) (x : Span α) {i j : ℕ}
    (hi : i < outs) (hj : j < cnt) :
    firstLoop outs cnt f y x (j + i * cnt) = f j (fun i => x.getZ (j + i * cnt)) i := by
  set own : ℕ → ℕ := fun k => if k < cnt * outs then k % cnt else cnt with hown
  have key := forLoop_own cnt (fun j y => scatter j cnt (f j fun i => x.getZ (j + i * cnt)) outs y) own y ?_ ?_
    (j + i * cnt)
  · rw [firstLoop, key]
    have ho : own (j + i * cnt) = j := strided_own hj hi
    rw [ho, if_pos hj]
    exact scatter_at j (by omega) _ hi _
  · intro J hJ y k hk
    refine scatter_ne _ _ _ _ _ fun i' hi' e => hk ?_
    rw [e]
    exact strided_own hJ hi'
  · intro J hJ y y' _ k hk
    have hlt : k < cnt * outs := by
      by_contra hc
      simp only [hown, if_neg hc] at hk
      omega
    simp only [hown, if_pos hlt] at hk
    obtain ⟨h1, h2⟩ := strided_cell hlt
    rw [hk] at h2
    rw [h2]
    exact (scatter_at J (by omega) _ h1 _).trans (scatter_at J (by omega) _ h1 _).symm

/-- What is stored: the new value, or the old one with the new one added. -/
def store {α : Type} (add : Option (α → α → α)) (a v : α) : α := match add with | some f => f a v | none => v

theorem scatterTo_at {α : Type} (add : Option (α → α → α)) (xn a : ℕ) {dj : ℕ} (hdj : 0 < dj) (v : ℕ → α) {R i : ℕ}
    (hi : i < R) (x : ℕ → α) (hx : a + i * dj < xn) :
    scatterTo add xn a dj v R x (a + i * dj) = store add (x (a + i * dj)) (v i) := by
  have hne : ∀ i' < R, i' ≠ i → a + i * dj ≠ a + i' * dj := by
    intro i' _ h e
    have := Nat.eq_of_mul_eq_mul_right hdj (show i * dj = i' * dj by omega)
    omega
  have hbelow : ∀ R' ≤ i, scatterTo add xn a dj v R' x (a + i * dj) = x (a + i * dj) := by
    intro R' hR'
    induction R' with
    | zero => rfl
    | succ R' ih =>
      simp only [scatterTo]
      by_cases h : a + R' * dj < xn
      · rw [if_pos h, Function.update_of_ne (hne R' (by omega) (by omega)), ih (by omega)]
      · rw [if_neg h, ih (by omega)]
  induction R with
  | zero => omega
  | succ R ih =>
    by_cases h : i = R
    · subst h
      simp only [scatterTo]
      rw [if_pos hx, Function.update_self, hbelow i le_rfl]
      rfl
    · have := ih (by omega) fun i' hi' => hne i' (by omega)
      simp only [scatterTo]
      by_cases h2 : a + R * dj < xn
      · rw [if_pos h2, Function.update_of_ne (hne R (by omega) (Ne.symm h)), this]
      · rw [if_neg h2, this]

theorem scatterTo_ne {α : Type} (add : Option (α → α → α)) (xn a dj : ℕ) (v : ℕ → α) (R : ℕ) (x : ℕ → α) {k : ℕ}
    (h : ∀ i < R, k = a + i * dj → ¬k < xn) : scatterTo add xn a dj v R x k = x k := by
  induction R with
  | zero => rfl
  | succ R ih =>
    have := ih fun i hi => h i (by omega)
    simp only [scatterTo]
    by_cases h2 : a + R * dj < xn
    · rw [if_pos h2, Function.update_of_ne _ , this]
      intro e
      exact h R (by omega) e (by omega)
    · rw [if_neg h2, this]

theorem lastLoop_at {α β : Type} (add : Option (α → α → α)) (outs cnt : ℕ) (f : ℕ → (ℕ → β) → ℕ → α) (y : ℕ → β)
    (xn : ℕ) (x : ℕ → α) (k : ℕ) :
    lastLoop add outs cnt f y xn x k =
      if k < cnt * outs ∧ k < xn then store add (x k) (f (k % cnt) (fun i => y (k % cnt + i * cnt)) (k / cnt))
      else x k := by
  set own : ℕ → ℕ := fun k => if k < cnt * outs then k % cnt else cnt with hown
  have key := forLoop_own cnt (fun j x => scatterTo add xn j cnt (f j fun i => y (j + i * cnt)) outs x) own x ?_ ?_ k
  · rw [lastLoop, key]
    by_cases hk : k < cnt * outs
    · have hpos : 0 < cnt := by
        rcases Nat.eq_zero_or_pos cnt with h | h
        · subst h; omega
        · exact h
      obtain ⟨h1, h2⟩ := strided_cell hk
      have ho : own k = k % cnt := by simp only [hown, if_pos hk]
      rw [ho, if_pos (Nat.mod_lt _ hpos)]
      by_cases hx : k < xn
      · rw [if_pos ⟨hk, hx⟩]
        conv_lhs => rw [h2]
        simp only [Nat.add_mul_mod_self_right, Nat.mod_mod]
        rw [scatterTo_at add xn _ hpos _ h1 x (by omega), ← h2]
      · rw [if_neg (by omega)]
        refine scatterTo_ne _ _ _ _ _ _ _ fun i' _ e => hx
    · have ho : own k = cnt := by simp only [hown, if_neg hk]
      rw [ho, if_neg (by omega), if_neg (by omega)]
  · intro J hJ x k hk
    refine scatterTo_ne _ _ _ _ _ _ _ fun i' hi' e => absurd ?_ hk
    rw [e]
    exact strided_own hJ hi'
  · intro J hJ x x' hxx k hk
    have hlt : k < cnt * outs := by
      by_contra hc
      simp only [hown, if_neg hc] at hk
      omega
    have hkk := hxx k hk
    simp only [hown, if_pos hlt] at hk
    obtain ⟨h1, h2⟩ := strided_cell hlt
    rw [hk] at h2
    by_cases hx : k < xn
    · rw [h2]
      refine (scatterTo_at add xn J (by omega) _ h1 _ (by omega)).trans
        (Eq.trans ?_ (scatterTo_at add xn J (by omega) _ h1 _ (by omega)).symm)
      rw [← h2, hkk]
    · exact (scatterTo_ne _ _ _ _ _ _ _ fun i' _ e => hx).trans
        (hkk.trans (scatterTo_ne _ _ _ _ _ _ _ fun i' _ e => hx).symm)

/-! ## Errors of one pass -/

variable {A : Type}

/-- A pass in place, from the errors of its iterations. -/
theorem levelLoop_err {r s cnt : ℕ} (hd : 2 ^ s ∣ cnt) {κ : ℝ} (hκ : 0 ≤ κ) (v : A → ℂ) (f : ℕ → (ℕ → A) → ℕ → A)
    (g : ℕ → (ℕ → ℂ) → ℕ → ℂ)
    (hf : ∀ j v v', (∀ i < 2 ^ r, v i = v' i) → ∀ i < 2 ^ r, f j v i = f j v' i)
    (hg : ∀ j v v', (∀ i < 2 ^ r, v i = v' i) → ∀ i < 2 ^ r, g j v i = g j v' i)
    (he : ∀ j < 2 ^ s, ∀ ys : ℕ → A, ∑ i ∈ range (2 ^ r), ‖v (f j ys i) - g j (fun i => v (ys i)) i‖ ^ 2 ≤
      κ ^ 2 * 2 ^ r * ∑ i ∈ range (2 ^ r), ‖v (ys i)‖ ^ 2) (y : ℕ → A) :
    nrm (cnt * 2 ^ r) (fun k => v (levelLoop r cnt s f y k) - levelLoop r cnt s g (fun k => v (y k)) k) ≤
      κ * Real.sqrt (2 ^ r) * nrm (cnt * 2 ^ r) fun k => v (y k) := by
  refine nrm_le_mul (by positivity) ?_
  rw [mul_pow, Real.sq_sqrt (by positivity), sum_cells hd, sum_cells hd, mul_sum]
  refine sum_le_sum fun J hJ => ?_
  have hJ := mem_range.1 hJ
  have hm : 0 < 2 ^ s := by positivity
  have hj := Nat.mod_lt J hm
  have hq : J / 2 ^ s * 2 ^ s + J % 2 ^ s < cnt := by
    rw [Nat.mul_comm, Nat.div_add_mod]; exact hJ
  refine le_trans (le_of_eq (sum_congr rfl fun i hi => ?_))
    (he (J % 2 ^ s) hj fun i => y ((J / 2 ^ s * 2 ^ r + i) * 2 ^ s + J % 2 ^ s))
  have hi := mem_range.1 hi
  rw [levelLoop_at r cnt s f y hf hi hj hq, levelLoop_at r cnt s g _ hg hi hj hq]

theorem getZ_map {A B : Type} [Zero A] [Zero B] (v : A → B) (h0 : v 0 = 0) (x : Span A) (i : ℕ) :
    v (x.getZ i) = if i < x.len then v (x.get i) else 0 := by
  rw [Span.getZ]
  split_ifs
  · rfl
  · exact h0

end Mandelbrot.FFT
