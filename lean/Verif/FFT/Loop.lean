import Verif.FFT.Model
import Mathlib.Data.Nat.Bitwise

/-!
# In-place loops with disjoint iterations
-/

namespace Mandelbrot.FFT

theorem forLoop_succ {σ : Type} (n : ℕ) (body : ℕ → σ → σ) (s : σ) :
    forLoop (n + 1) body s = body n (forLoop n body s) := by
  simp [forLoop, List.range_succ]

@[simp] theorem forLoop_zero {σ : Type} (body : ℕ → σ → σ) (s : σ) : forLoop 0 body s = s := rfl

/-- A loop in which every cell belongs to one iteration: that iteration decides its value, from the values its
own cells had before the loop. -/
theorem forLoop_own {α : Type} (n : ℕ) (body : ℕ → (ℕ → α) → (ℕ → α)) (own : ℕ → ℕ) (y : ℕ → α)
    (hout : ∀ i < n, ∀ y k, own k ≠ i → body i y k = y k)
    (hloc : ∀ i < n, ∀ y y', (∀ k, own k = i → y k = y' k) → ∀ k, own k = i → body i y k = body i y' k) (k : ℕ) :
    forLoop n body y k = if own k < n then body (own k) y k else y k := by
  induction n generalizing k with
  | zero => simp
  | succ n ih =>
    have ih' := ih (fun i hi => hout i (by omega)) (fun i hi => hloc i (by omega))
    rw [forLoop_succ]
    by_cases h : own k = n
    · rw [if_pos (by omega), h]
      refine hloc n (by omega) _ _ (fun k hk => ?_) k h
      rw [ih', if_neg (by omega)]
    · rw [hout n (by omega) _ _ h, ih']
      by_cases h1 : own k < n
      · rw [if_pos h1, if_pos (by omega)]
      · rw [if_neg h1, if_neg (by omega)]

theorem scatter_at {α : Type} (a : ℕ) {dj : ℕ} (hdj : 0 < dj) (v : ℕ → α) {R i : ℕ} (hi : i < R) (y : ℕ → α) :
    scatter a dj v R y (a + i * dj) = v i := by
  induction R with
  | zero => omega
  | succ R ih =>
    rw [scatter]
    by_cases h : i = R
    · subst h; rw [Function.update_self]
    · rw [Function.update_of_ne, ih (by omega)]
      intro e
      have := Nat.eq_of_mul_eq_mul_right hdj (show i * dj = R * dj by omega)
      omega

theorem scatter_ne {α : Type} (a dj : ℕ) (v : ℕ → α) (R : ℕ) (y : ℕ → α) {k : ℕ}
    (h : ∀ i < R, k ≠ a + i * dj) : scatter a dj v R y k = y k := by
  induction R with
  | zero => rfl
  | succ R ih =>
    rw [scatter, Function.update_of_ne (h R (by omega)), ih fun i hi => h i (by omega)]

theorem scatterX_at (add : Bool) (xn a : ℕ) {dj : ℕ} (hdj : 0 < dj) (v : ℕ → ℝ) {R i : ℕ} (hi : i < R) (x : ℕ → ℝ)
    (hx : a + i * dj < xn) :
    scatterX add xn a dj v R x (a + i * dj) = if add then x (a + i * dj) + v i else v i := by
  have hne : ∀ i' < R, i ≠ i' → a + i * dj ≠ a + i' * dj := by
    intro i' _ h e
    have := Nat.eq_of_mul_eq_mul_right hdj (show i * dj = i' * dj by omega)
    omega
  have hbelow : ∀ R' ≤ i, scatterX add xn a dj v R' x (a + i * dj) = x (a + i * dj) := by
    intro R' hR'
    induction R' with
    | zero => rfl
    | succ R' ih =>
      simp only [scatterX]
      split_ifs
      · rw [Function.update_of_ne (hne R' (by omega) (by omega)), ih (by omega)]
      · rw [Function.update_of_ne (hne R' (by omega) (by omega)), ih (by omega)]
      · exact ih (by omega)
  induction R with
  | zero => omega
  | succ R ih =>
    by_cases h : i = R
    · subst h
      simp only [scatterX]
      rw [if_pos hx, Function.update_self, hbelow i le_rfl]
    · have := ih (by omega) fun i' hi' => hne i' (by omega)
      simp only [scatterX]
      by_cases h2 : a + R * dj < xn
      · rw [if_pos h2, Function.update_of_ne (hne R (by omega) h), this]
      · rw [if_neg h2, this]

theorem scatterX_ne (add : Bool) (xn a dj : ℕ) (v : ℕ → ℝ) (R : ℕ) (x : ℕ → ℝ) {k : ℕ}
    (h : ∀ i < R, k = a + i * dj → ¬k < xn) : scatterX add xn a dj v R x k = x k := by
  induction R with
  | zero => rfl
  | succ R ih =>
    have := ih fun i hi => h i (by omega)
    simp only [scatterX]
    by_cases h2 : a + R * dj < xn
    · rw [if_pos h2, Function.update_of_ne _ , this]
      intro e
      exact h R (by omega) e (by omega)
    · rw [if_neg h2, this]

/-! ## One radix-`2^r` pass over a buffer -/

/-- The common form of the in-place passes. -/
def levelLoop {α : Type} (r cnt s : ℕ) (f : ℕ → (ℕ → α) → ℕ → α) (y : ℕ → α) : ℕ → α :=
  forLoop cnt (fun j y =>
    let m := 1 <<< s
    let j1 := j &&& (m - 1)
    let j0 := (j - j1) <<< r
    let ys := fun i => y (j0 + j1 + i * m)
    scatter (j0 + j1) m (f j1 ys) (2 ^ r) y) y

theorem and_mask (j s : ℕ) : j &&& (2 ^ s - 1) = j % 2 ^ s := Nat.and_two_pow_sub_one_eq_mod _ _

/-- Where an iteration of a pass works. -/
theorem level_base (j s r : ℕ) :
    (j - j % 2 ^ s) <<< r + j % 2 ^ s = j / 2 ^ s * 2 ^ r * 2 ^ s + j % 2 ^ s := by
  rw [Nat.shiftLeft_eq]
  have : j - j % 2 ^ s = j / 2 ^ s * 2 ^ s := by
    have := Nat.div_add_mod j (2 ^ s)
    rw [Nat.mul_comm] at this
    omega
  rw [this]
  ring

/-- A pass computes, for each group of `2^r` cells at distance `2^s`, the given function of the group. -/
theorem levelLoop_at {α : Type} (r cnt s : ℕ) (f : ℕ → (ℕ → α) → ℕ → α) (y : ℕ → α)
    (hf : ∀ j v v', (∀ i < 2 ^ r, v i = v' i) → ∀ i < 2 ^ r, f j v i = f j v' i)
    {q i j : ℕ} (hi : i < 2 ^ r) (hj : j < 2 ^ s) (hq : q * 2 ^ s + j < cnt) :
    levelLoop r cnt s f y ((q * 2 ^ r + i) * 2 ^ s + j) = f j (fun i' => y ((q * 2 ^ r + i') * 2 ^ s + j)) i := by
  have hm : 0 < 2 ^ s := by positivity
  have hR : 0 < 2 ^ r := by positivity
  set own : ℕ → ℕ := fun k => k / 2 ^ s / 2 ^ r * 2 ^ s + k % 2 ^ s with hown
  -- coordinates of a cell of iteration `J`
  have hpos : ∀ J i', J / 2 ^ s * 2 ^ r * 2 ^ s + J % 2 ^ s + i' * 2 ^ s = (J / 2 ^ s * 2 ^ r + i') * 2 ^ s + J % 2 ^ s := by
    intro J i'; ring
  have hownat : ∀ J i', i' < 2 ^ r → own ((J / 2 ^ s * 2 ^ r + i') * 2 ^ s + J % 2 ^ s) = J := by
    intro J i' hi'
    have hJ := Nat.mod_lt J hm
    simp only [hown]
    have h1 : ((J / 2 ^ s * 2 ^ r + i') * 2 ^ s + J % 2 ^ s) / 2 ^ s = J / 2 ^ s * 2 ^ r + i' := by
      rw [Nat.mul_comm, Nat.mul_add_div hm, Nat.div_eq_of_lt hJ, add_zero]
    have h2 : ((J / 2 ^ s * 2 ^ r + i') * 2 ^ s + J % 2 ^ s) % 2 ^ s = J % 2 ^ s := by
      rw [Nat.mul_comm, Nat.mul_add_mod, Nat.mod_mod]
    have h3 : (J / 2 ^ s * 2 ^ r + i') / 2 ^ r = J / 2 ^ s := by
      rw [Nat.mul_comm, Nat.mul_add_div hR, Nat.div_eq_of_lt hi', add_zero]
    rw [h1, h2, h3]
    have := Nat.div_add_mod J (2 ^ s)
    rw [Nat.mul_comm] at this
    omega
  have hcell : ∀ k, k = (own k / 2 ^ s * 2 ^ r + k / 2 ^ s % 2 ^ r) * 2 ^ s + own k % 2 ^ s := by
    intro k
    have hk := Nat.mod_lt k hm
    have e1 : own k / 2 ^ s = k / 2 ^ s / 2 ^ r := by
      simp only [hown]; rw [Nat.mul_comm, Nat.mul_add_div hm, Nat.div_eq_of_lt hk, add_zero]
    have e2 : own k % 2 ^ s = k % 2 ^ s := by
      simp only [hown]; rw [Nat.mul_comm, Nat.mul_add_mod, Nat.mod_mod]
    rw [e1, e2]
    have h1 := Nat.div_add_mod (k / 2 ^ s) (2 ^ r)
    rw [Nat.mul_comm] at h1
    rw [h1]
    have h2 := Nat.div_add_mod k (2 ^ s)
    rw [Nat.mul_comm] at h2
    omega
  have key := forLoop_own cnt (fun j y =>
    let m := 1 <<< s
    let j1 := j &&& (m - 1)
    let j0 := (j - j1) <<< r
    let ys := fun i => y (j0 + j1 + i * m)
    scatter (j0 + j1) m (f j1 ys) (2 ^ r) y) own y ?_ ?_ ((q * 2 ^ r + i) * 2 ^ s + j)
  · have hJ : (q * 2 ^ s + j) / 2 ^ s = q := by
      rw [Nat.mul_comm, Nat.mul_add_div hm, Nat.div_eq_of_lt hj, add_zero]
    have hJ' : (q * 2 ^ s + j) % 2 ^ s = j := by
      rw [Nat.mul_comm, Nat.mul_add_mod, Nat.mod_eq_of_lt hj]
    have ho := hownat (q * 2 ^ s + j) i hi
    rw [hJ, hJ'] at ho
    rw [levelLoop, key, ho, if_pos hq]
    simp only [Nat.one_shiftLeft, and_mask, level_base]
    rw [hJ, hJ']
    rw [show (q * 2 ^ r + i) * 2 ^ s + j = q * 2 ^ r * 2 ^ s + j + i * 2 ^ s by ring, scatter_at _ hm _ hi]
    refine hf j _ _ (fun i' _ => ?_) i hi
    congr 1; ring
  · intro J _ y k hk
    simp only [Nat.one_shiftLeft, and_mask, level_base]
    refine scatter_ne _ _ _ _ _ fun i' hi' e => hk ?_
    rw [e, hpos, hownat J i' hi']
  · intro J _ y y' hyy k hk
    simp only [Nat.one_shiftLeft, and_mask, level_base]
    have hlt : k / 2 ^ s % 2 ^ r < 2 ^ r := Nat.mod_lt _ hR
    have hk' := hcell k
    rw [hk] at hk'
    rw [hk', ← hpos, scatter_at _ hm _ hlt, scatter_at _ hm _ hlt]
    refine hf _ _ _ (fun i' hi' => ?_) _ hlt
    rw [hpos]
    exact hyy _ (hownat J i' hi')

end Mandelbrot.FFT
