import Verif.FFT.Kernel
import Verif.Props.Resume
import Verif.Props.Alias

/-!
# C58: series functions and the area program on top of the transforms

Nothing is assumed about multiplication here: the kernels are those of /repo/fft.cc and /repo/codelets.cc, in exact real arithmetic.
-/

set_option linter.unusedSectionVars false

namespace Mandelbrot.Props

open Finset PowerSeries FFT

variable (B J : Junk ℝ) (buf : ℕ → ℂ) (old : ℕ → ℝ)

/-! ## Products -/

/-- C58.  `mul` by transforms is the truncated product, up to `2^28` stored terms. -/
theorem C58_mul (z x y : Ser ℝ) (hx : x.WF) (hy : y.WF) (hx1 : 1 ≤ x.nonzero) (hy1 : 1 ≤ y.nonzero)
    (hl : min (min x.known y.known) (x.nonzero + y.nonzero - 1) ≤ z.limit)
    (hN : min (min x.known y.known) (x.nonzero + y.nonzero - 1) ≤ 2 ^ 28) :
    ∃ z' : Ser ℝ, Ser.mul (fftHost B buf old) z x y = .ok z' ∧ z'.limit = z.limit ∧ z'.known = min x.known y.known ∧
      z'.nonzero = min (min x.known y.known) (x.nonzero + y.nonzero - 1) ∧
      ∀ k : ℕ, (k : ℤ) < z'.known → z'.at k = ∑ p ∈ antidiagonal k, x.at p.1 * y.at p.2 :=
  C09_mul (fftHost_exactMul B buf old) z x y hx hy hx1 hy1 hl (by exact_mod_cast hN)

/-- C58.  Beyond `2^28` stored terms `mul` reads past the end of the table of roots of unity. -/
theorem C58_mul_too_large (z x y : Ser ℝ) (hx : x.WF) (hy : y.WF) (hx1 : 1 ≤ x.nonzero) (hy1 : 1 ≤ y.nonzero)
    (hl : min (min x.known y.known) (x.nonzero + y.nonzero - 1) ≤ z.limit)
    (hN : 2 ^ 28 < min (min x.known y.known) (x.nonzero + y.nonzero - 1)) :
    Ser.mul (fftHost B buf old) z x y = .error .ub := by
  have hxk := hx.le_known
  have hyk := hy.le_known
  set nk := min x.known y.known with hnk
  have e1 : relu (x.nonzero + y.nonzero - 1) = x.nonzero + y.nonzero - 1 := relu_of_nonneg (by omega)
  set nz := min nk (x.nonzero + y.nonzero - 1) with hnz
  obtain ⟨q, hq⟩ := Int.eq_ofNat_of_zero_le (show 0 ≤ nz by omega)
  have hlen : (⟨z.limit, nk, nz, z.data⟩ : Ser ℝ).span.len = q := by simp [Ser.span, hq]
  simp only [Ser.mul, ← hnk, e1, ← hnz, Ser.setCounts_ok z (show 0 ≤ nz by omega) (min_le_left _ _) hl]
  show ((fftHost B buf old).mul (⟨z.limit, nk, nz, z.data⟩ : Ser ℝ).span.len _ _ >>= _) = _
  rw [hlen, hq]
  have hl1 := Ser.lowSpan_len x q
  have hl2 := Ser.lowSpan_len y q
  have := C23_too_large buf (nz := q) (by omega) old (x := x.lowSpan q) (y := y.lowSpan q) (by omega) (by omega)
  simp only [fftHost, hostKer, fftMulKer]
  rw [this, berr]

/-- C58.  `sqr` by transforms. -/
theorem C58_sqr (y x : Ser ℝ) (hx : x.WF) (hl : min x.known (max (2 * x.nonzero - 1) 0) ≤ y.limit)
    (hN : min x.known (max (2 * x.nonzero - 1) 0) ≤ 2 ^ 28) :
    ∃ y' : Ser ℝ, Ser.sqr (fftHost B buf old) y x = .ok y' ∧ y'.limit = y.limit ∧ y'.known = x.known ∧
      y'.nonzero = min x.known (max (2 * x.nonzero - 1) 0) ∧
      ∀ k : ℕ, (k : ℤ) < y'.known → y'.at k = ∑ p ∈ antidiagonal k, x.at p.1 * x.at p.2 :=
  C10_sqr (fftHost_exactMul B buf old) y x hx hl (by exact_mod_cast hN)

/-- C58.  `mul1p` by transforms. -/
theorem C58_mul1p (z x y : Ser ℝ) (hx : x.WF) (hy : y.WF) (hx1 : 1 ≤ x.nonzero) (hy1 : 1 ≤ y.nonzero) (s : ℕ) (hs : 0 < s)
    (hl : min (min x.known (y.known + s)) (x.nonzero + y.nonzero + s - 1) ≤ z.limit)
    (hN : min (min x.known (y.known + s)) (x.nonzero + y.nonzero + s - 1) - s ≤ 2 ^ 28) :
    ∃ z' : Ser ℝ, Ser.mul1p (fftHost B buf old) z x y s = .ok z' ∧ z'.limit = z.limit ∧
      z'.known = min x.known (y.known + s) ∧
      z'.nonzero = min (min x.known (y.known + s)) (x.nonzero + y.nonzero + s - 1) ∧
      ∀ k : ℕ, (k : ℤ) < z'.known →
        z'.at k = ∑ p ∈ antidiagonal k, x.at p.1 * Spec.onePlus s y.at p.2 :=
  C11_mul1p (fftHost_exactMul B buf old) z x y hx hy hx1 hy1 s hs hl (by exact_mod_cast hN)

/-- C58.  What `mul1p` takes from `fft_addmul` is what `fft_addmul` adds: with any contents `z` of the destination, any contents of the
two buffers and any function that turns `z` into `z₁`, the result is `z₁` plus that, and it fails in the same way. -/
theorem C58_addmul (buf' : ℕ → ℂ) (nz : ℕ) (z z₁ : ℕ → ℝ) (x y : Span ℝ) {middle : (ℕ → ℝ) → Res (ℕ → ℝ)}
    (hm : middle z = .ok z₁) :
    fftAddmul FFT.sLimit buf' nz z x y middle =
      ((fftHost B buf old).addmul nz x y >>= fun r => .ok fun k => if k < nz then z₁ k + r k else z₁ k) :=
  fftAddmul_split buf' buf nz z old x y hm

/-! ## Newton's method on top of transforms -/

/-- C58.  `inv`. -/
theorem C58_inv (y x : Ser ℝ) (n : ℕ) (hN : n ≤ 2 ^ 28) (hx : x.WF) (hn : x.known = n) (h1 : 0 < n → 1 ≤ x.nonzero)
    (h0 : 0 < n → x.at 0 ≠ 0) (hl : n ≤ y.limit) :
    ∃ y' : Ser ℝ, Ser.inv (fftHost B buf old) J y x = .ok y' ∧ y'.limit = y.limit ∧ y'.known = n ∧
      ∀ k < n, (∑ p ∈ antidiagonal k, x.at p.1 * y'.at p.2) = if k = 0 then 1 else 0 :=
  C12_inv (fftHost_exact B buf old) J y x n hx hn h1 h0 hl hN

/-- C58.  `div`. -/
theorem C58_div (y a b : Ser ℝ) (na nb : ℕ) (hN : min na nb ≤ 2 ^ 28) (ha : a.WF) (hb : b.WF) (hna : a.known = na)
    (hnb : b.known = nb) (ha1 : 0 < na → 1 ≤ a.nonzero) (hb1 : 0 < nb → 1 ≤ b.nonzero) (h0 : 0 < min na nb → b.at 0 ≠ 0)
    (hl : ((min na nb : ℕ) : ℤ) ≤ y.limit) :
    ∃ y' : Ser ℝ, Ser.div (fftHost B buf old) J y a b = .ok y' ∧ y'.limit = y.limit ∧ y'.known = (min na nb : ℕ) ∧
      ∀ k < min na nb, (∑ p ∈ antidiagonal k, b.at p.1 * y'.at p.2) = a.at k :=
  C13_div (fftHost_exact B buf old) J y a b na nb ha hb hna hnb ha1 hb1 h0 hl hN

/-- C58.  `exp`. -/
theorem C58_exp (y x : Ser ℝ) (n : ℕ) (hN : n ≤ 2 ^ 28) (hx : x.WF) (hn : x.known = n) (h0 : x.at 0 = 0) (hl : n ≤ y.limit) :
    ∃ y' : Ser ℝ, Ser.exp (fftHost B buf old) J y x = .ok y' ∧ y'.limit = y.limit ∧ y'.known = n ∧ Spec.IsExp n x.at y'.at :=
  C15_exp (fftHost_exact B buf old) J y x n hx hn h0 hl hN

/-- C58.  `log`. -/
theorem C58_log (y x : Ser ℝ) (n : ℕ) (hN : n ≤ 2 ^ 28) (hx : x.WF) (hn : x.known = n) (h1 : 0 < n → 1 ≤ x.nonzero)
    (h0 : 0 < n → x.at 0 = 1) (hl : n ≤ y.limit) :
    ∃ y' : Ser ℝ, Ser.log (fftHost B buf old) J y x = .ok y' ∧ y'.limit = y.limit ∧ y'.known = n ∧ Spec.IsLog n x.at y'.at :=
  C16_log (fftHost_exact B buf old) J y x n hx hn h1 h0 hl hN

/-- C58.  `log(1 + z^s exp(x)) / z^s`, the function that `escape` is built from. -/
theorem C58_log1p_exp (y x : Ser ℝ) (n s : ℕ) (hN : n ≤ 2 ^ 28) (hs : 0 < s) (hx : x.WF) (hn : x.known = n)
    (h1 : 0 < n → 1 ≤ x.nonzero) (h0 : x.at 0 = 0) (hl : n ≤ y.limit) :
    ∃ y' : Ser ℝ, Ser.log1pExp (fftHost B buf old) J y x s = .ok y' ∧ y'.limit = y.limit ∧ y'.known = n ∧
      ∀ e : ℕ → ℝ, Spec.IsExp n x.at e → Spec.IsLog (n + s) (Spec.onePlus s e) (Spec.shift s y'.at) :=
  C18_log1p_exp (fftHost_exact B buf old) J y x n s hs hx hn h1 h0 hl hN

/-! ## The area program -/

/-- C58.  Up to `2^28` terms the program computes the coefficients of the one Böttcher series, or throws because it judged an area
inaccurate. -/
theorem C58_areas (accept : ℕ → Bool → Ser ℝ → Bool) (k : ℕ) (hk : k ≤ 28) :
    (∃ i b f, i ≤ k ∧ accept i b f = false ∧ Area.areas (fftHost B buf old) J accept k = .error .assertion) ∨
    ∃ g, Area.areas (fftHost B buf old) J accept k = .ok g ∧ g.WF ∧ g.limit = 2 ^ k ∧ g.known = 2 ^ k ∧ 1 ≤ g.nonzero ∧
      Spec.IsBottcher k g.at :=
  C28_areas (fftHost_exact B buf old) J accept k (by omega) (Nat.pow_le_pow_right (by norm_num) hk)

/-- C58.  There is one sequence `f₀`, the exponential of the Böttcher series, such that whenever a run of `k` steps is followed by one more
step that returns `f`, the area of `f`, summed by any number of threads in any order, is the sum of Grönwall's area theorem over the
first `2^(k+1)` terms of `f₀`. -/
theorem C58_area_values : ∃ f₀ : ℕ → ℝ, (∀ k, ∃ g, Spec.IsBottcher k g ∧ Spec.IsExp (2 ^ k) g f₀) ∧
    ∀ (B J B' J' : Junk ℝ) (buf buf' : ℕ → ℂ) (old old' : ℕ → ℝ) (accept accept' : ℕ → Bool → Ser ℝ → Bool) (k : ℕ), k + 1 ≤ 28 →
      ∀ g g' f : Ser ℝ, Area.areas (fftHost B buf old) J accept k = .ok g →
        Area.bottcherStep (fftHost B' buf' old') J' accept' g = .ok (g', f) →
        ∀ (prec threads : ℕ) (r : ℝ), 0 < threads →
          Area.AreaAt Area.realOps prec threads (fun i => f.data i.toNat) f.nonzero r →
          r = Spec.gronwall f₀ (2 ^ (k + 1)) := by
  obtain ⟨g₀, h0⟩ := C29_one_series (K := ℝ)
  have hB : ∀ k, Spec.IsBottcher k g₀ := fun k => (h0 k g₀).mpr fun _ _ => rfl
  have hc : constantCoeff (PowerSeries.mk g₀) = 0 := by rw [cc_mk]; exact (hB 0).1
  have hE : ∀ n, Spec.IsExp n g₀ (seqOf (E (PowerSeries.mk g₀))) := fun n => by
    have := isExp_of_agree (n := n) hc (Agree.rfl' (F := E (PowerSeries.mk g₀)))
    rwa [seqOf_mk] at this
  refine ⟨seqOf (E (PowerSeries.mk g₀)), fun k => ⟨g₀, hB k, hE _⟩, ?_⟩
  intro B J B' J' buf buf' old old' accept accept' k hk g g' f e1 e2 prec threads r hT hr
  rcases C58_areas B J buf old accept k (by omega) with ⟨_, _, _, _, _, h⟩ | ⟨g1, h, w1, _, n1, z1, hB1⟩
  · rw [h] at e1; cases e1
  rw [h] at e1
  cases e1
  rcases C28_step (fftHost_exact B' buf' old') J' accept' k (by omega) g w1 n1 z1 hB1
      (Nat.pow_le_pow_right (by norm_num) hk) with ⟨_, _, _, h⟩ | ⟨g2, f2, h, _, w2, _, _, _, n2, _, hB2, hE2⟩
  · rw [h] at e2; cases e2
  rw [h] at e2
  cases e2
  have hEq : ∀ j < 2 ^ (k + 1), f.at j = seqOf (E (PowerSeries.mk g₀)) j := by
    have hg := (h0 (k + 1) _).mp hB2
    refine hE2.unique ⟨(hE (2 ^ (k + 1))).1, fun j hj => ?_⟩
    rw [(hE (2 ^ (k + 1))).2 j hj]
    refine sum_congr rfl fun p hp => ?_
    rw [HasAntidiagonal.mem_antidiagonal] at hp
    simp only [Spec.deriv]
    rw [hg (p.1 + 1) (by omega)]
  obtain ⟨m, hm⟩ := Int.eq_ofNat_of_zero_le w2.nonneg
  have hm2 : m ≤ 2 ^ (k + 1) := by have := w2.le_known; rw [hm, n2] at this; exact_mod_cast this
  rw [hm] at hr
  rw [C30_exact prec threads hT f.data m r hr, Spec.gronwall, Spec.gronwall]
  congr 1
  obtain ⟨d, hd⟩ := Nat.exists_eq_add_of_le hm2
  rw [hd, sum_range_add]
  have z : ∑ x ∈ range d, (1 - ((m + x : ℕ) : ℝ)) * seqOf (E (PowerSeries.mk g₀)) (m + x) ^ 2 = 0 := by
    refine sum_eq_zero fun x hx => ?_
    have hx' := mem_range.mp hx
    rw [← hEq (m + x) (by omega), Ser.at, if_neg (by rw [hm]; push_cast; omega)]
    ring
  rw [z, add_zero]
  refine sum_congr rfl fun x hx => ?_
  have hx' := mem_range.mp hx
  rw [← hEq x (by omega), Ser.at, if_pos (by rw [hm]; exact_mod_cast hx')]

/-- C58.  Hence the areas of successive runs decrease, from `π`. -/
theorem C58_areas_decrease (B J B' J' : Junk ℝ) (buf buf' : ℕ → ℂ) (old old' : ℕ → ℝ) (accept accept' : ℕ → Bool → Ser ℝ → Bool)
    (k k' : ℕ) (hk : k ≤ k') (hk' : k' + 1 ≤ 28) {g₁ g₂ f g₁' g₂' f' : Ser ℝ}
    (a₁ : Area.areas (fftHost B buf old) J accept k = .ok g₁)
    (a₂ : Area.bottcherStep (fftHost B buf old) J accept g₁ = .ok (g₂, f))
    (b₁ : Area.areas (fftHost B' buf' old') J' accept' k' = .ok g₁')
    (b₂ : Area.bottcherStep (fftHost B' buf' old') J' accept' g₁' = .ok (g₂', f'))
    (prec prec' threads threads' : ℕ) (hT : 0 < threads) (hT' : 0 < threads') (r r' : ℝ)
    (hr : Area.AreaAt Area.realOps prec threads (fun i => f.data i.toNat) f.nonzero r)
    (hr' : Area.AreaAt Area.realOps prec' threads' (fun i => f'.data i.toNat) f'.nonzero r') :
    r' ≤ r ∧ r ≤ Real.pi := by
  obtain ⟨f₀, h1, h2⟩ := C58_area_values
  rw [h2 B J B J buf buf old old accept accept k (by omega) _ _ _ a₁ a₂ prec threads r hT hr,
    h2 B' J' B' J' buf' buf' old' old' accept' accept' k' hk' _ _ _ b₁ b₂ prec' threads' r' hT' hr']
  refine ⟨C30_antitone f₀ _ _ Nat.one_le_two_pow (Nat.pow_le_pow_right (by norm_num) (by omega)), C30_le_pi f₀ _ Nat.one_le_two_pow ?_⟩
  obtain ⟨g, -, hg⟩ := h1 0
  exact hg.1 (Nat.two_pow_pos 0)

/-- C58.  With areas that are judged accurate, the program runs to any `k ≤ 28` and writes its files. -/
theorem C58_runs (env : Area.Env ℝ) (output : Bool) (ha : ∀ k b f, env.accept k b f = true)
    (h1 : ∀ a, env.isOne a = true ↔ a = 1) (h0 : ∀ a, env.isZero a = true ↔ a = 0) (k : ℕ) (hk : k ≤ 28) :
    ∃ files g, Area.areasMain (fftHost B buf old) J env none output k = .ok (files, g) ∧ g.WF ∧ g.known = 2 ^ k :=
  C34_runs (fftHost_exact B buf old) J env output ha h1 h0 k (by omega) (Nat.pow_le_pow_right (by norm_num) hk)

/-- C58.  The transforms look only at the cells of their operands, so what the transform buffers, the destinations, fresh storage and the
scratch memory of base cases contain does not matter, in any history of operations of any size. -/
theorem C58_memory (B B' : Junk ℝ) (buf buf' : ℕ → ℂ) (old old' : ℕ → ℝ) {ops ops' : List (Junk ℝ × SerOp ℝ)}
    (hs : List.Forall₂ (fun a b => a.2.SameCall b.2) ops ops') (hv : ∀ op ∈ ops, op.2.Valid) {σ τ : ℕ → Ser ℝ}
    (h : ∀ i, Ser.SimL (σ i) (τ i)) :
    RelRes (fun σ τ => ∀ i, (σ i).known = (τ i).known ∧ (σ i).nonzero = (τ i).nonzero ∧ (σ i).limit = (τ i).limit ∧
        ∀ n : ℕ, (n : ℤ) < (σ i).nonzero → (σ i).data n = (τ i).data n)
      (Ser.run (fftHost B buf old) σ ops) (Ser.run (fftHost B' buf' old') τ ops') :=
  (Ser.run_sim (fftHost_sim B B' buf buf' old old') hs h hv).mono fun _ _ _ _ h i =>
    ⟨(h i).known, (h i).nonzero, (h i).limit, (h i).data⟩

/-! ## Examples -/

/-- C58 example: 20 terms, which is above the size of the base case, so the product goes through the transforms. -/
example (B : Junk ℝ) (buf : ℕ → ℂ) (old : ℕ → ℝ) : ∃ z' : Ser ℝ, Ser.mul (fftHost B buf old) (Ser.new 20 fun _ => 9)
    ⟨20, 20, 20, fun i => i + 1⟩ ⟨20, 20, 20, fun _ => 2⟩ = .ok z' ∧ z'.known = 20 ∧ z'.at 3 = 20 := by
  obtain ⟨z', e, _, h2, _, h4⟩ := C58_mul B buf old (Ser.new 20 fun _ => 9) ⟨20, 20, 20, fun i => i + 1⟩ ⟨20, 20, 20, fun _ => 2⟩
    ⟨by norm_num, by norm_num, by norm_num⟩ ⟨by norm_num, by norm_num, by norm_num⟩ (by norm_num) (by norm_num)
    (by norm_num [Ser.new, relu]) (by norm_num)
  have hk : z'.known = 20 := by rw [h2]; norm_num
  refine ⟨z', e, hk, ?_⟩
  rw [h4 3 (by rw [hk]; norm_num), Nat.sum_antidiagonal_eq_sum_range_succ_mk]
  norm_num [Ser.at, sum_range_succ]

/-- C58 example: a run of 5 steps that is followed by another step. -/
example (B J : Junk ℝ) (buf : ℕ → ℂ) (old : ℕ → ℝ) : ∃ g g' f : Ser ℝ,
    Area.areas (fftHost B buf old) J (fun _ _ _ => true) 5 = .ok g ∧
    Area.bottcherStep (fftHost B buf old) J (fun _ _ _ => true) g = .ok (g', f) ∧ f.known = 64 := by
  rcases C58_areas B J buf old (fun _ _ _ => true) 5 (by norm_num) with ⟨_, _, _, _, h, _⟩ | ⟨g, e, w, _, n, z, hB⟩
  · cases h
  rcases C28_step (fftHost_exact B buf old) J (fun _ _ _ => true) 5 (by norm_num) g w n z hB (by norm_num) with
    ⟨_, _, h, _⟩ | ⟨g', f, e', _, _, _, _, _, n', _⟩
  · cases h
  exact ⟨g, g', f, e, e', by rw [n']; norm_num⟩

end Mandelbrot.Props
