import Verif.MSet.External
import Verif.MSet.AreaThm
import Verif.PS.Bottcher
import Mathlib.Analysis.Normed.Ring.InfiniteSum

/-!
# The Taylor coefficients of the exterior map are those of the formal Böttcher series
-/

namespace Mandelbrot

namespace MSet

open Filter Topology Metric PowerSeries

/-- A power series converges on the unit disc to a function. -/
def Rep (f : ℂ → ℂ) (F : ℂ⟦X⟧) : Prop := ∀ u : ℂ, ‖u‖ < 1 → HasSum (fun i => coeff i F * u ^ i) (f u)

theorem Rep.add {f g : ℂ → ℂ} {F G : ℂ⟦X⟧} (hf : Rep f F) (hg : Rep g G) : Rep (fun u => f u + g u) (F + G) := by
  intro u hu
  have := (hf u hu).add (hg u hu)
  simpa only [map_add, add_mul] using this

theorem Rep.sub {f g : ℂ → ℂ} {F G : ℂ⟦X⟧} (hf : Rep f F) (hg : Rep g G) : Rep (fun u => f u - g u) (F - G) := by
  intro u hu
  have := (hf u hu).sub (hg u hu)
  simpa only [map_sub, sub_mul] using this

theorem Rep.mul {f g : ℂ → ℂ} {F G : ℂ⟦X⟧} (hf : Rep f F) (hg : Rep g G) : Rep (fun u => f u * g u) (F * G) := by
  intro u hu
  have h1 := (hf u hu).summable.norm
  have h2 := (hg u hu).summable.norm
  have h3 := (summable_norm_sum_mul_antidiagonal_of_summable_norm h1 h2).of_norm.hasSum
  rw [← tsum_mul_tsum_eq_tsum_sum_antidiagonal_of_summable_norm h1 h2, (hf u hu).tsum_eq, (hg u hu).tsum_eq] at h3
  have he : (fun n => coeff n (F * G) * u ^ n) =
      fun n => ∑ kl ∈ Finset.antidiagonal n, coeff kl.1 F * u ^ kl.1 * (coeff kl.2 G * u ^ kl.2) := by
    funext n
    rw [coeff_mul, Finset.sum_mul]
    refine Finset.sum_congr rfl fun p hp => ?_
    rw [← Finset.HasAntidiagonal.mem_antidiagonal.mp hp, pow_add]
    ring
  rw [he]
  exact h3

theorem Rep.X_pow (n : ℕ) : Rep (fun u => u ^ n) (X ^ n) := by
  intro u _
  have h1 := hasSum_single (f := fun i => coeff i (X ^ n : ℂ⟦X⟧) * u ^ i) n (fun i hi => by
    rw [coeff_X_pow, if_neg hi, zero_mul])
  simpa only [coeff_X_pow, if_true, one_mul] using h1

theorem Rep.one : Rep (fun _ => 1) 1 := by simpa using Rep.X_pow 0

/-- The constant term is the limit at 0. -/
theorem tendsto_of_series {f : ℂ → ℂ} {a : ℕ → ℂ} (h : ∀ u : ℂ, ‖u‖ < 1 → HasSum (fun i => a i * u ^ i) (f u)) :
    Tendsto f (𝓝[≠] 0) (𝓝 (a 0)) := by
  have hs : Summable fun i : ℕ => ‖a (i + 1)‖ * (1 / 2 : ℝ) ^ i := by
    have h1 := (h (1 / 2) (by norm_num)).summable.norm
    have h2 := ((summable_nat_add_iff 1).mpr h1).mul_left 2
    refine h2.congr fun i => ?_
    rw [norm_mul, norm_pow, pow_succ]
    norm_num
    ring
  set A := ∑' i : ℕ, ‖a (i + 1)‖ * (1 / 2 : ℝ) ^ i with hA
  rw [tendsto_iff_norm_sub_tendsto_zero]
  have hb : ∀ᶠ u : ℂ in 𝓝[≠] 0, ‖f u - a 0‖ ≤ A * ‖u‖ := by
    have h1 : ∀ᶠ u : ℂ in 𝓝[≠] 0, ‖u‖ < 1 / 2 := by
      have : ∀ᶠ u : ℂ in 𝓝 0, ‖u‖ < 1 / 2 := continuous_norm.continuousAt.eventually_lt_const (by simp only [norm_zero]; norm_num)
      exact this.filter_mono nhdsWithin_le_nhds
    filter_upwards [h1] with u hu
    have h2 := (hasSum_nat_add_iff' 1).mpr (h u (by linarith))
    rw [Finset.sum_range_one, pow_zero, mul_one] at h2
    rw [← h2.tsum_eq, mul_comm]
    refine tsum_of_norm_bounded (hs.hasSum.mul_left ‖u‖) fun i => ?_
    rw [norm_mul, norm_pow, pow_succ]
    have : ‖u‖ ^ i ≤ (1 / 2) ^ i := pow_le_pow_left₀ (norm_nonneg u) hu.le i
    have h3 := mul_le_mul_of_nonneg_left this (show 0 ≤ ‖a (i + 1)‖ * ‖u‖ by positivity)
    linarith
  refine squeeze_zero' (Eventually.of_forall fun u => norm_nonneg _) hb ?_
  have : Tendsto (fun u : ℂ => A * ‖u‖) (𝓝 0) (𝓝 (A * ‖(0 : ℂ)‖)) := (continuous_const.mul continuous_norm).tendsto 0
  rw [norm_zero, mul_zero] at this
  exact this.mono_left nhdsWithin_le_nhds

/-- A function of order `m` at 0 has no terms below `m`. -/
theorem coeff_zero_of_order {m : ℕ} : ∀ {f : ℂ → ℂ} {a : ℕ → ℂ}, (∀ u : ℂ, ‖u‖ < 1 → HasSum (fun i => a i * u ^ i) (f u)) →
    (∃ A : ℝ, ∀ᶠ u : ℂ in 𝓝[≠] 0, ‖f u‖ ≤ A * ‖u‖ ^ m) → ∀ j < m, a j = 0 := by
  induction m with
  | zero => intro f a _ _ j hj; omega
  | succ m ih =>
    intro f a h ⟨A, hA⟩ j hj
    have h0 : a 0 = 0 := by
      have h1 := tendsto_of_series h
      have h2 : Tendsto f (𝓝[≠] 0) (𝓝 0) := by
        rw [tendsto_zero_iff_norm_tendsto_zero]
        refine squeeze_zero' (Eventually.of_forall fun u => norm_nonneg _) hA ?_
        have hc : Continuous fun u : ℂ => A * ‖u‖ ^ (m + 1) := by fun_prop
        have := hc.tendsto 0
        rw [norm_zero, zero_pow (Nat.succ_ne_zero m), mul_zero] at this
        exact this.mono_left nhdsWithin_le_nhds
      exact tendsto_nhds_unique h1 h2
    have h1 : ∀ u : ℂ, ‖u‖ < 1 → HasSum (fun i => a (i + 1) * u ^ i) (if u = 0 then a 1 else f u / u) := by
      intro u hu
      split_ifs with hu0
      · subst hu0
        have := hasSum_single (f := fun i => a (i + 1) * (0 : ℂ) ^ i) 0 (fun i hi => by rw [zero_pow hi, mul_zero])
        simpa using this
      · have h2 := (hasSum_nat_add_iff' 1).mpr (h u hu)
        rw [Finset.sum_range_one, pow_zero, mul_one, h0, sub_zero] at h2
        have h3 := h2.div_const u
        have he : (fun i => a (i + 1) * u ^ i) = fun i => a (i + 1) * u ^ (i + 1) / u := by
          funext i
          rw [pow_succ]
          field_simp
        rw [he]
        exact h3
    rcases j with _ | j
    · exact h0
    · refine ih (a := fun i => a (i + 1)) h1 ⟨A, ?_⟩ j (by omega)
      filter_upwards [hA, self_mem_nhdsWithin] with u h2 h3
      have h3 : u ≠ 0 := h3
      rw [if_neg h3, norm_div, div_le_iff₀ (norm_pos_iff.mpr h3)]
      refine h2.trans (le_of_eq ?_)
      ring

/-- The power series of `hfun`. -/
noncomputable def HS : ℂ⟦X⟧ := PowerSeries.mk (tay hfun)

theorem rep_HS : Rep hfun HS := by
  intro u hu
  simpa only [HS, coeff_mk] using tay_hasSum hfun_differentiableOn hu

/-- The iterates, normalized. -/
noncomputable def qfun : ℕ → ℂ → ℂ
  | 0 => hfun
  | k + 1 => fun u => qfun k u * qfun k u + u ^ (2 ^ (k + 1) - 1) * hfun u

theorem rep_Q (k : ℕ) : Rep (qfun k) (Bottcher.Q HS k) := by
  induction k with
  | zero => exact rep_HS
  | succ k ih =>
    rw [Bottcher.Q, sq]
    exact (ih.mul ih).add ((Rep.X_pow _).mul rep_HS)

theorem qfun_eq {u : ℂ} (h0 : u ≠ 0) (k : ℕ) : qfun k u = u ^ 2 ^ k * orb (hfun u / u) (hfun u / u) k := by
  induction k with
  | zero =>
    rw [qfun, orb, pow_zero, pow_one]
    field_simp
  | succ k ih =>
    have h1 : u ^ 2 ^ (k + 1) = u ^ (2 ^ (k + 1) - 1) * u := by
      rw [← pow_succ]
      congr 1
      have := Nat.one_le_two_pow (n := k + 1)
      omega
    have h2 : u ^ 2 ^ (k + 1) = u ^ 2 ^ k * u ^ 2 ^ k := by
      rw [← pow_add, pow_succ]
      congr 1
      ring
    have h3 : u ^ 2 ^ (k + 1) * (hfun u / u) = u ^ (2 ^ (k + 1) - 1) * hfun u := by
      rw [h1]
      field_simp
    rw [qfun]
    simp only
    rw [ih, orb, mul_add, h3, h2]
    ring

theorem qfun_order (k : ℕ) : ∃ A : ℝ, ∀ᶠ u : ℂ in 𝓝[≠] 0, ‖qfun k u - 1‖ ≤ A * ‖u‖ ^ (2 ^ (k + 1) - 1) := by
  refine ⟨80, ?_⟩
  have h1 : ∀ᶠ u : ℂ in 𝓝[≠] 0, ‖u‖ < 1 / 1000 := by
    have : ∀ᶠ u : ℂ in 𝓝 0, ‖u‖ < 1 / 1000 := continuous_norm.continuousAt.eventually_lt_const (by simp only [norm_zero]; norm_num)
    exact this.filter_mono nhdsWithin_le_nhds
  filter_upwards [h1, self_mem_nhdsWithin] with u hu h0
  have h0 : u ≠ 0 := h0
  have hpos := norm_pos_iff.mpr h0
  have hu1 : ‖u‖ < 1 := by linarith
  obtain ⟨hd, he⟩ := ext_orb hu1 h0 k
  have hC : ‖hfun u / u‖ * ‖u‖ ≤ 40 := by
    rw [norm_div, div_mul_cancel₀ _ hpos.ne']
    exact hfun_le hu1
  have hp : ‖u ^ 2 ^ k‖ ^ 2 = ‖u‖ * ‖u‖ ^ (2 ^ (k + 1) - 1) := by
    rw [norm_pow, ← pow_mul, ← pow_succ']
    congr 1
    have := Nat.one_le_two_pow (n := k + 1)
    rw [pow_succ] at this ⊢
    omega
  have hle : ‖hfun u / u‖ * ‖u ^ 2 ^ k‖ ^ 2 ≤ 40 * ‖u‖ ^ (2 ^ (k + 1) - 1) := by
    rw [hp, ← mul_assoc]
    exact mul_le_mul_of_nonneg_right hC (by positivity)
  have hN : (hfun u / u, u ^ 2 ^ k) ∈ N0 := by
    constructor
    · rw [norm_pow]
      exact pow_lt_one₀ hpos.le hu1 (Nat.two_pow_pos k).ne'
    · refine lt_of_le_of_lt hle ?_
      have : ‖u‖ ^ (2 ^ (k + 1) - 1) ≤ ‖u‖ := by
        refine pow_le_of_le_one hpos.le hu1.le ?_
        have := Bottcher.two_pow_sub_pos k
        omega
      linarith
  rw [qfun_eq h0, he]
  have := chi_quad hd hN
  linarith

/-- The series solves the equation of Böttcher to every order. -/
theorem Q_HS (k : ℕ) : Agree (2 ^ (k + 1) - 1) (Bottcher.Q HS k) 1 := by
  have h1 := (rep_Q k).sub Rep.one
  intro j hj
  have := coeff_zero_of_order (a := fun i => coeff i (Bottcher.Q HS k - 1)) h1 (qfun_order k) j hj
  simp only [map_sub] at this
  exact sub_eq_zero.mp this

theorem cc_HS : constantCoeff HS = 1 := by
  rw [← coeff_zero_eq_constantCoeff_apply, HS, coeff_mk, tay, iteratedDeriv_zero, hfun_zero]
  simp

/-- Solutions of the equation are unique. -/
theorem Q_unique {F F' : ℂ⟦X⟧} (h : constantCoeff F = 1) (h' : constantCoeff F' = 1) {k : ℕ}
    (hQ : Agree (2 ^ k) (Bottcher.Q F k) 1) (hQ' : Agree (2 ^ k) (Bottcher.Q F' k) 1) : Agree (2 ^ k) F F' := by
  classical
  let _ : Ldexp ℂ := ⟨fun a b => a * 2 ^ b⟩
  have _ : Ser.LawfulLdexp ℂ := ⟨fun _ _ => rfl⟩
  have c := constantCoeff_L h
  have c' := constantCoeff_L h'
  have s : Bottcher.Solves k (Mandelbrot.L F) := (Bottcher.solves_iff c k).mpr (by rw [E_L h]; exact hQ)
  have s' : Bottcher.Solves k (Mandelbrot.L F') := (Bottcher.solves_iff c' k).mpr (by rw [E_L h']; exact hQ')
  have := E_agree c c' (Bottcher.Solves.unique c' c s' s)
  rwa [E_L h, E_L h'] at this

theorem map_Q (F : ℝ⟦X⟧) (k : ℕ) :
    Bottcher.Q (PowerSeries.map Complex.ofRealHom F) k = PowerSeries.map Complex.ofRealHom (Bottcher.Q F k) := by
  induction k with
  | zero => rfl
  | succ k ih => rw [Bottcher.Q, Bottcher.Q, ih, map_add, map_pow, map_mul, map_pow, PowerSeries.map_X]

/-- A real solution of the equation gives the Taylor coefficients of the exterior map. -/
theorem tay_eq {F : ℝ⟦X⟧} (h : constantCoeff F = 1) {k : ℕ} (hQ : Agree (2 ^ k) (Bottcher.Q F k) 1) :
    ∀ j < 2 ^ k, tay hfun j = ((coeff j F : ℝ) : ℂ) := by
  have h1 : Agree (2 ^ k) (Bottcher.Q (PowerSeries.map Complex.ofRealHom F) k) 1 := by
    intro j hj
    rw [map_Q, coeff_map, hQ j hj, coeff_one, coeff_one]
    split_ifs <;> simp
  have h2 : constantCoeff (PowerSeries.map Complex.ofRealHom F) = 1 := by
    rw [← coeff_zero_eq_constantCoeff_apply, coeff_map, coeff_zero_eq_constantCoeff_apply, h, map_one]
  have h3 := Q_unique cc_HS h2 ((Q_HS k).mono (Bottcher.two_pow_lt k)) h1
  intro j hj
  have := h3 j hj
  rw [HS, coeff_mk, coeff_map] at this
  exact this

/-- The exterior map of the Mandelbrot set. -/
theorem exterior : Exterior hfun Spec.mandelbrotSet 40 where
  diff := hfun_differentiableOn
  one := hfun_zero
  inj := fun _ _ hu h0 hv h0' h => ext_inj hu h0 hv h0' h
  range := not_mem_iff
  bdd := fun _ h => mandelbrotSet_bounded h
  le := fun _ h => hfun_le h

end MSet

end Mandelbrot
